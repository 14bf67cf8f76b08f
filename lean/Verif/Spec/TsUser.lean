import Verif.Spec.TsSyntax
import Verif.Model.Grammar

/-! # Specification: the types a grammar is written with

The declared types and the mapping code of a grammar are TypeScript: what they mean when they
are read as such. -/

namespace Verif.Spec
open Verif MiniTs

/-- A type expression in a text. -/
def readType (text : Str) : Option Exp :=
  (TsSyntax.scan text).bind fun ws =>
    match TsSyntax.type (10 * ws.length + 10) ws with
    | some (e, []) => some e
    | _ => none

mutual
/-- The type an expression declares; names stay names.  Conditional types, applications and
template literals are outside the fragment. -/
def declTy : Exp → Option Ty
  | .lit t => some t
  | .ref x .nil => some (.named x)
  | .arr e => (declTy e).map .arr
  | .tup es => (declTys es).map .tup
  | .union es => (declTys es).map .union
  | .obj ms => (declMems ms).map .obj
  | _ => none
def declTys : Exps → Option (List Ty)
  | .nil => some []
  | .cons .elem e es => (declTy e).bind fun t => (declTys es).map (t :: ·)
  | .cons _ _ _ => none
def declMems : Exps → Option (List (Key × Bool × Ty))
  | .nil => some []
  | .cons (.member k o) e es => (declTy e).bind fun t => (declMems es).map ((k, o, t) :: ·)
  | .cons _ _ _ => none
end

/-- The type declared for a nonterminal, the last if there are several. -/
def declared (ps : List Ast.Prod) (k : Str) : Option Ty :=
  (ps.reverse.find? fun p => decide (p.name = k)).bind fun p => (readType p.tsCode).bind declTy

/-- `v` has the type that is declared for `k`, as can be seen by unfolding at most `n` declarations. -/
def hasWithin (decl : Str → Option Ty) : Nat → Str → Ty → Bool
  | 0, _, _ => false
  | n + 1, k, v =>
    match decl k with
    | some t => accepts ⟨fun _ _ => none, hasWithin decl n⟩ t v
    | none => false

/-- The types of the grammar are in scope in mapping code. -/
def inScope (ps : List Ast.Prod) : Call := fun x args =>
  if args.isEmpty && ps.any (fun p => decide (p.name = x)) then some (.named x) else none

open Classical in
/-- `v` has the type that is declared for `k`. -/
noncomputable def hasDeclared (decl : Str → Option Ty) (k : Str) (v : Ty) : Bool := decide (∃ n, hasWithin decl n k v = true)

/-- The meaning of the types and the mapping code of a grammar.  Mapping code outside the
fragment has no value. -/
noncomputable def userOf (ps : List Ast.Prod) : User where
  code c env := (readType c).bind fun e =>
    ev ⟨fun _ _ => none, hasDeclared (declared ps)⟩ (inScope ps) env e
  has := hasDeclared (declared ps)

end Verif.Spec
