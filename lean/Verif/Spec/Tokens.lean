import Verif.Spec.Cfg
import Verif.Spec.Lexer

/-! # Specification: terminals as lexer tokens -/

namespace Verif.Spec
open Verif

/-- The source text of a terminal. -/
def spelling : Sym → Str
  | .strLit s => s
  | .regex s => s
  | _ => []

/-- The strings a terminal stands for; `rx` gives the meaning of regex source text. -/
def Denotes (rx : Str → Option Hir) : Sym → List Char → Prop
  | .strLit s, w => w = s
  | .regex s, w => ∃ h, rx s = some h ∧ Matches h w
  | _, _ => False

/-- No string literal is spelled like a regex. -/
def DistinctSpellings (g : Grammar) : Prop :=
  ∀ s ∈ g.tokens, ∀ t ∈ g.tokens, IsTerm s → IsTerm t → spelling s = spelling t → s = t

/-- `ds` declares the terminals of `g`, in order: the name is the source text, the
value is kept, the index is the number of the terminal, and the regex matches what
the terminal stands for. -/
structure Declares (rx : Str → Option Hir) (g : Grammar) (ds : List (TokenDef × Hir)) : Prop where
  each : ∀ d ∈ ds, ∃ (s : Sym) (k : Nat), g.tokens[k]? = some s ∧ IsTerm s ∧ d.1 = ⟨spelling s, true, some k⟩ ∧
    ∀ w, Matches d.2 w ↔ Denotes rx s w
  all : ∀ (s : Sym) (k : Nat), g.tokens[k]? = some s → IsTerm s → ∃ d ∈ ds, d.1 = ⟨spelling s, true, some k⟩
  order : ds.Pairwise fun a b => ∃ i j, a.1.tokenIdx = some i ∧ b.1.tokenIdx = some j ∧ i < j

/-- The terminal of a piece of the input. -/
def pieceSym (g : Grammar) (ds : List (TokenDef × Hir)) (p : Nat × Nat × List Char) : Option Sym :=
  (ds[p.2.1]?).bind fun d => d.1.tokenIdx.bind fun k => g.tokens[k]?

end Verif.Spec
