import Verif.Spec.Rename

/-! # Specification: rules that nothing leads to -/

namespace Verif.Spec
open Verif

/-- `ps'` has the rules of `ps` and those in `extra`, in some order. -/
def Adds (ps ps' : List Ast.Prod) (extra : List (Str × List Sym)) : Prop := (rulesOf ps').Perm (rulesOf ps ++ extra)

/-- No rule of `ps` mentions a left side of `extra`, and `S` is none. -/
def Idle (ps : List Ast.Prod) (S : Str) (extra : List (Str × List Sym)) : Prop :=
  ∀ A r, (A, r) ∈ extra → A ≠ S ∧ ∀ B s, (B, s) ∈ rulesOf ps → Sym.nonTerm A ∉ s

/-- The terminals of `extra` are terminals of `ps`. -/
def KnownTerms (ps : List Ast.Prod) (extra : List (Str × List Sym)) : Prop :=
  ∀ A r, (A, r) ∈ extra → ∀ t ∈ r, IsTerm t → ∃ B s, (B, s) ∈ rulesOf ps ∧ t ∈ s

end Verif.Spec
