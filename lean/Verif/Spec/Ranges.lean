import Verif.Model.Nfa

/-! # Specification: ranges as sets of code points -/

namespace Verif.Spec

open Verif

/-- Code point `c` belongs to the half-open range `m`. -/
def Mem (c : Nat) (m : Match) : Prop := m.lo ≤ c ∧ c < m.hi

/-- No common code point. -/
def Disjoint (a b : Match) : Prop := ∀ c, Mem c a → ¬ Mem c b

/-- Every code point of `a` is in `b`. -/
def Within (a b : Match) : Prop := ∀ c, Mem c a → Mem c b

/-- Nested or disjoint. -/
def Laminar (a b : Match) : Prop := Disjoint a b ∨ Within a b ∨ Within b a

/-- Two ranges that overlap without being nested neither contain a third range nor lie in one. -/
def Tame (rs : List Match) : Prop :=
  ∀ a ∈ rs, ∀ b ∈ rs, ¬ Laminar a b → ∀ c ∈ rs, (∃ x, Mem x c) → c ≠ a → ¬ Within c a ∧ ¬ Within a c

/-- `a` is the first of the pieces `al` that contains `c` and lies inside one of the ranges `R`. -/
def Chosen (al : List Match) (R : Match → Prop) (c : Nat) (a : Match) : Prop :=
  ∃ l₁ l₂, al = l₁ ++ a :: l₂ ∧ Mem c a ∧ (∃ r, R r ∧ Within a r) ∧
    ∀ b ∈ l₁, Mem c b → ∀ r, R r → ¬ Within b r

end Verif.Spec
