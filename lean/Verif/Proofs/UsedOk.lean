import Verif.Proofs.Progress

/-! # Lemmas about rules that can be reached (for `Verif.Props.Used`) -/

namespace Verif
open Verif.Spec

variable {ps : List Ast.Prod} {start : Ast.Prod} {g : Grammar}

/-- The rule of the start, and the rules that can be reached from it. -/
def UsedRule (ps : List Ast.Prod) (start : Ast.Prod) (g : Grammar) (A : Str) (r : List Sym) : Prop :=
  (A = g.augName ∧ r = [.nonTerm start.name]) ∨ (AstRule ps A r ∧ Uses (AstRule ps) start.name A)

theorem UsedRule.next (hs : UsedRule ps start g A r) {B : Str} (hB : Sym.nonTerm B ∈ r) : Uses (AstRule ps) start.name B := by
  rcases hs with ⟨-, rfl⟩ | ⟨hR, hu⟩
  · rw [List.mem_singleton, Sym.nonTerm.injEq] at hB
    rw [hB]; exact .refl
  · exact .tail hu hR hB

/-- The items of the canonical sets are of such rules. -/
theorem reach_used (hok : Grammar.GOk g) (hg : Grammar.fromAst ps = .ok g) (hs : ps.find? (fun p => p.isStart) = some start)
    {I : Item → Nat → Prop} (h : Reach g I) : ∀ it la, I it la → ∀ p, g.prods[it.1]? = some p → UsedRule ps start g p.name p.inputs := by
  have clo : ∀ {K : Item → Nat → Prop}, (∀ it la, K it la → ∀ p, g.prods[it.1]? = some p → UsedRule ps start g p.name p.inputs) →
      ∀ it la, Clo g K it la → ∀ p, g.prods[it.1]? = some p → UsedRule ps start g p.name p.inputs := by
    intro K hK it la hc
    induction hc with
    | base h => exact hK _ _ h
    | step _ ha ih =>
      intro p hp
      obtain ⟨r, B, p', t, tb, a1, a2, a3, a4, -, -, -⟩ := ha
      simp only at hp
      rw [hp] at a3; cases a3
      have hm := List.mem_of_getElem? a2
      rcases (Grammar.rule_iff hg hs).mp ⟨p, List.mem_of_getElem? hp, rfl, rfl⟩ with ⟨k, -⟩ | k
      · rw [← a4, k] at hm
        exact absurd hm (hok.fresh r (List.mem_of_getElem? a1))
      · exact .inr ⟨k, a4 ▸ (ih r a1).next hm⟩
  induction h with
  | init =>
    refine clo ?_
    rintro it la ⟨rfl, -⟩ p hp
    simp only [Grammar.start_prod hg hs, Option.some.injEq] at hp
    subst hp
    exact .inl ⟨rfl, rfl⟩
  | goto _ _ ih =>
    refine clo ?_
    rintro it la ⟨d, q, -, h2, -, -⟩ p hp
    exact ih _ _ h2 p hp

theorem unit_used (hok : Grammar.GOk g) (hg : Grammar.fromAst ps = .ok g) (hs : ps.find? (fun p => p.isStart) = some start) {A : Str} {X : Sym}
    (h : UnitPlus (UsedRule ps start g) A X) :
    X ≠ .nonTerm g.augName ∧ (A ≠ g.augName → Uses (AstRule ps) start.name A ∧ UnitPlus (AstRule ps) A X) := by
  have hne : ∀ {A X}, UsedRule ps start g A [X] → X ≠ .nonTerm g.augName := by
    rintro A X h rfl
    obtain ⟨p, hp, -, hi⟩ : Rule g.prods A [.nonTerm g.augName] := by
      refine (Grammar.rule_iff hg hs).mpr ?_
      rcases h with h | h
      · exact .inl h
      · exact .inr h.1
    exact hok.fresh p hp (by simp [hi])
  induction h with
  | one h =>
    refine ⟨hne h, fun hA => ?_⟩
    rcases h with h | h
    · exact absurd h.1 hA
    · exact ⟨h.2, .one h.1⟩
  | cons h _ ih =>
    refine ⟨ih.1, fun hA => ?_⟩
    have hB := hne h
    rcases h with h | h
    · exact absurd h.1 hA
    · exact ⟨h.2, .cons h.1 (ih.2 fun e => hB (by rw [e])).2⟩

end Verif
