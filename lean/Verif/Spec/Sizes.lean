import Verif.Model.Nfa
import Verif.Model.Item

/-! # Specification: sizes of regular expressions and grammars -/

namespace Verif.Spec
open Verif

mutual
/-- The number of operators, literals and ranges of a regex. -/
def size : Hir → Nat
  | .empty => 1
  | .lit _ => 1
  | .cls rs => 1 + rs.length
  | .anchor => 1
  | .wordBoundary => 1
  | .rep _ h => 1 + size h
  | .group h => 1 + size h
  | .concat hs => 1 + sizes hs
  | .alt hs => 1 + sizes hs
/-- The number of operators, literals and ranges in a list of regexes. -/
def sizes : List Hir → Nat
  | [] => 0
  | h :: hs => size h + sizes hs
end

/-- The number of pairs of a production and a dot. -/
def dots (g : Grammar) : Nat := (g.prods.map fun p => p.inputs.length + 1).sum

end Verif.Spec
