import Verif.Spec.Rename

/-! # Specification: simple grammars -/

namespace Verif.Spec
open Verif

/-- Every body begins with a terminal, and no two bodies of one nonterminal begin with the same. -/
def Simple (ps : List Ast.Prod) : Prop :=
  (∀ A r, (A, r) ∈ rulesOf ps → ∀ B, r.head? ≠ some (.nonTerm B)) ∧
  (rulesOf ps).Pairwise fun x y => x.1 = y.1 → x.2.head? ≠ y.2.head?

end Verif.Spec
