import Mathlib.Logic.Equiv.Basic
import Verif.Spec.Lr

/-! # Specification: the same grammar under other names and in another order -/

namespace Verif.Spec
open Verif

/-- A symbol with the nonterminals renamed. -/
def renameSym (ρ : Str → Str) : Sym → Sym
  | .nonTerm A => .nonTerm (ρ A)
  | x => x

/-- The rules of the source grammar in order. -/
def rulesOf (ps : List Ast.Prod) : List (Str × List Sym) :=
  ps.flatMap fun p => p.bodies.map fun b => (p.name, b.inputs.map Ast.InSym.lower)

/-- `ps'` has the rules of `ps` with the nonterminals renamed by `ρ`, in some order.  How the rules are grouped, and what
is not part of a rule (types, mapping code, names of parameters, `export`), may differ. -/
def Renamed (ρ : Str → Str) (ps ps' : List Ast.Prod) : Prop :=
  (rulesOf ps').Perm ((rulesOf ps).map fun r => (ρ r.1, r.2.map (renameSym ρ)))

end Verif.Spec
