import Verif.Proofs.IdleOk
import Verif.Proofs.BuildOk

/-! # Two productions with the same rule -/

namespace Verif.Spec
open Verif

variable {g : Grammar} {q q' : Nat} {p p' : Production}

theorem asks_twin (hq : g.prods[q]? = some p) (hq' : g.prods[q']? = some p') (hn : p.name = p'.name) {it : Item} {la b : Nat}
    (h : Asks g it la q b) : Asks g it la q' b := by
  obtain ⟨r, B, r', t, tb, h1, h2, h3, h4, h5⟩ := h
  rw [hq] at h3; cases h3
  exact ⟨r, B, p', t, tb, h1, h2, hq', by rw [← hn, h4], h5⟩

theorem clo_twin (hq : g.prods[q]? = some p) (hq' : g.prods[q']? = some p') (hn : p.name = p'.name)
    {I : Item → Nat → Prop} (hI : ∀ d la, I (q, d) la → I (q', d) la) (d la : Nat) (h : Clo g I (q, d) la) : Clo g I (q', d) la := by
  generalize he : (q, d) = it at h
  cases h with
  | base h => subst he; exact .base (hI d la h)
  | step h ha =>
    cases he
    exact .step h (asks_twin hq hq' hn ha)

/-- Wherever one of the two is, the other one is too. -/
theorem reach_twin (hq : g.prods[q]? = some p) (hq' : g.prods[q']? = some p') (hn : p.name = p'.name) (hi : p.inputs = p'.inputs)
    (h0 : q ≠ 0) {I : Item → Nat → Prop} (hr : Reach g I) : ∀ d la, I (q, d) la → I (q', d) la := by
  induction hr with
  | init =>
    refine clo_twin hq hq' hn fun d la h => ?_
    simp only [Prod.mk.injEq] at h
    exact absurd h.1.1 h0
  | goto _ _ ih =>
    refine clo_twin hq hq' hn fun d la h => ?_
    obtain ⟨e, r, h1, h2, h3, h4⟩ := h
    rw [hq] at h3; cases h3
    exact ⟨e, p', h1, ih e la h2, hq', by rw [← hi]; exact h4⟩

theorem clash_twin (hok : Grammar.GOk g) {d : Nat} {lr : List ItemSet} (hlr : ItemSet.items g d = .ok lr)
    (hq : g.prods[q]? = some p) (hq' : g.prods[q']? = some p') (hn : p.name = p'.name) (hi : p.inputs = p'.inputs)
    (h0 : q ≠ 0) (hne : q ≠ q') (hu : Uses (Rule g.prods) g.augName p.name) : Clash g := by
  obtain ⟨I, la, h1, h2⟩ := ItemSet.live_item hok hlr hu q p hq rfl p.inputs.length (Nat.le_refl _)
  have h3 := reach_twin hq hq' hn hi h0 h1 _ _ h2
  have hl : ∀ it la, I it la → LalrOf g I it la := fun it la h => ⟨I, h1, fun _ => Iff.rfl, h⟩
  refine ⟨I, (q, p.inputs.length), (q', p.inputs.length), la, h1, fun e => hne (by cases e; rfl), ⟨p, hq, .inl ⟨hl _ _ h2, ?_⟩⟩,
    ⟨p', hq', .inl ⟨hl _ _ h3, ?_⟩⟩⟩
  · show p.inputs[p.inputs.length]? = none
    simp
  · show p'.inputs[p.inputs.length]? = none
    rw [← hi]; simp

/-- A member that is counted twice is at two places. -/
theorem two_places {α : Type} [BEq α] [LawfulBEq α] {x : α} : ∀ {l : List α}, 1 < l.count x → ∃ i j : Nat, i ≠ j ∧ l[i]? = some x ∧ l[j]? = some x
  | [], h => by simp at h
  | y :: l, h => by
    by_cases hy : y = x
    · subst hy
      rw [List.count_cons_self] at h
      obtain ⟨j, hj⟩ := List.getElem?_of_mem (List.count_pos_iff.1 (by omega : 0 < l.count y))
      exact ⟨0, j + 1, by omega, rfl, hj⟩
    · rw [List.count_cons_of_ne hy] at h
      obtain ⟨i, j, h1, h2, h3⟩ := two_places h
      exact ⟨i + 1, j + 1, by omega, h2, h3⟩

theorem clash_of_twice {ps : List Ast.Prod} {start : Ast.Prod} (he : Expressible ps)
    (hf : ps.find? (fun p => p.isStart) = some start) (hg : Grammar.fromAst ps = .ok g) (hb : Buildable (AstRule ps) start.name)
    {A : Str} {r : List Sym} (hu : Uses (AstRule ps) start.name A) (h2 : 1 < (rulesOf ps).count (A, r)) : Clash g := by
  have hok := Grammar.gok_of_fromAst he hg
  obtain ⟨lr, hlr⟩ := (ItemSet.items_ok_iff hok).2 ((Grammar.buildable_iff he hf hg).2 hb)
  obtain ⟨i, j, h1, h3, h4⟩ := two_places h2
  have hk := prods_keys hf hg
  have e : ∀ i : Nat, (rulesOf ps)[i]? = (g.prods.map fun p => (p.name, p.inputs))[i + 1]? := fun i => by rw [hk]; rfl
  rw [e] at h3 h4
  obtain ⟨p, hp, a1, a2⟩ := key_at.1 h3
  obtain ⟨p', hp', b1, b2⟩ := key_at.1 h4
  obtain ⟨hS, hto, -⟩ := Grammar.rules_agree he hf hg
  refine clash_twin hok hlr hp hp' (a1.trans b1.symm) (a2.trans b2.symm) (by omega) (by omega) ?_
  rw [a1]
  have : Uses (Rule g.prods) start.name A := by
    clear h2 h3 h4 a1 a2 b1 b2
    induction hu with
    | refl => exact .refl
    | tail _ hr hm ih => exact .tail ih (hto _ _ hr) hm
  exact (Uses.tail .refl ((hS _).2 rfl) (by simp)).trans this

end Verif.Spec
