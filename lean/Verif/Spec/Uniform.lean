import Verif.Spec.Lr

/-! # Specification: grammars in which what follows a nonterminal does not depend on the place -/

namespace Verif.Spec
open Verif

/-- `b` can follow `B`: the end of input follows `S`; and after `A → αBβ` whatever begins `β` together with what can follow `A`. -/
inductive Followed (R : Str → List Sym → Prop) (S : Str) : Str → Sym → Prop
  | start : Followed R S S .eof
  | step {A B : Str} {α β : List Sym} {t b : Sym} : R A (α ++ .nonTerm B :: β) → Followed R S A t → Starts R (β ++ [t]) b → Followed R S B b

/-- What can follow a nonterminal can follow it wherever it stands: only the end of input follows `S`, and whatever follows `B`
follows it in every rule `A → αBβ` that can be used. -/
structure Uniform (R : Str → List Sym → Prop) (S : Str) : Prop where
  start : ∀ b, Followed R S S b → b = .eof
  place : ∀ A α B β, R A (α ++ .nonTerm B :: β) → (∃ t, Followed R S A t) → ∀ b, Followed R S B b → ∃ t, Followed R S A t ∧ Starts R (β ++ [t]) b

/-- Nonterminals stand at the end of bodies only. -/
def RightLinear (R : Str → List Sym → Prop) : Prop := ∀ A α B β, R A (α ++ .nonTerm B :: β) → β = []

/-- No nonterminal stands at two places, and `S` at none. -/
def Once (R : Str → List Sym → Prop) (S : Str) : Prop :=
  (∀ A α β, ¬ R A (α ++ .nonTerm S :: β)) ∧
  ∀ B A α β A' α' β', R A (α ++ .nonTerm B :: β) → R A' (α' ++ .nonTerm B :: β') → A = A' ∧ β = β'

end Verif.Spec
