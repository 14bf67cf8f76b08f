import Verif.Spec.Pieces

/-! # What one step of a lexer may answer -/

namespace Verif.Spec

/-- Nothing can follow `w`: after the pieces it is read as, no piece lies in a range that may come next. -/
def Ended (al : List Match) (toks : List (TokenDef × Hir)) (w : List Char) : Prop :=
  ∃ as, Reads al (toks.map Prod.snd) w as ∧ ∀ a ∈ al, ∀ m, PAfter (toks.map Prod.snd) as m → ¬ Within a m

end Verif.Spec
