import Verif.Model.Lex

/-! # Specification: the definition that counts for a name -/

namespace Verif.Spec
open Verif

/-- `d` is the last definition with the name `n`. -/
def LastNamed (defs : List TokenDef) (n : Str) (d : TokenDef) : Prop :=
  d.name = n ∧ ∃ before after, defs = before ++ d :: after ∧ ∀ e ∈ after, e.name ≠ n

end Verif.Spec
