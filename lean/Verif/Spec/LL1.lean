import Verif.Spec.Rename

/-! # Specification: LL(1) grammars -/

namespace Verif.Spec
open Verif

/-- LL(1), for grammars without empty bodies: no terminal can begin two bodies of one nonterminal that can be reached. -/
def LL1 (ps : List Ast.Prod) (S : Str) : Prop :=
  (rulesOf ps).Pairwise fun x y =>
    x.1 = y.1 → Uses (AstRule ps) S x.1 → ∀ t, Starts (AstRule ps) x.2 t → ¬ Starts (AstRule ps) y.2 t

/-- Every nonterminal that can be reached can begin with some terminal. -/
def Begins (ps : List Ast.Prod) (S : Str) : Prop := ∀ A, Uses (AstRule ps) S A → ∃ t, Starts (AstRule ps) [.nonTerm A] t

end Verif.Spec
