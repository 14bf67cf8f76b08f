import Verif.Model.Dfa
import Verif.Proofs.NfaSim

/-! `DFABuilder::epsilon_closure` and `move_set`. -/

namespace Verif
open Spec

namespace Dfa

def unseen (n : Nfa) (set : List Nat) : Nat :=
  ((List.range n.states.length).filter fun x => decide (x ∉ set)).length

theorem unseen_oinsert {n : Nfa} {set : List Nat} {a : Nat} (ha : a < n.states.length)
    (hs : a ∉ set) : unseen n (oinsert a set) + 1 = unseen n set := by
  unfold unseen
  have hnd : ((List.range n.states.length).filter fun x => decide (x ∉ set)).Nodup :=
    List.nodup_range.filter _
  have hmem : a ∈ (List.range n.states.length).filter fun x => decide (x ∉ set) := by
    simp [ha, hs]
  have heq : ((List.range n.states.length).filter fun x => decide (x ∉ oinsert a set)) =
      ((List.range n.states.length).filter fun x => decide (x ∉ set)).erase a := by
    rw [hnd.erase_eq_filter, List.filter_filter]
    congr 1
    funext x
    simp only [mem_oinsert, not_or]
    by_cases hx : x = a
    · subst hx; simp
    · simp [hx]
  rw [heq, List.length_erase_of_mem hmem]
  have : 0 < ((List.range n.states.length).filter fun x => decide (x ∉ set)).length :=
    List.length_pos_of_mem hmem
  omega

theorem epsPush_spec (n : Nfa) : ∀ (es : List NEdge) (stack set : List Nat), Sorted set →
    (∀ e ∈ es, e.dst < n.states.length) →
    Sorted (epsPush es stack set).2 ∧
    (∀ x, x ∈ (epsPush es stack set).2 ↔ x ∈ set ∨ ∃ e ∈ es, e.label = none ∧ e.dst = x) ∧
    (∀ x ∈ (epsPush es stack set).2, x ∈ set ∨ x ∈ (epsPush es stack set).1) ∧
    (∀ x ∈ stack, x ∈ (epsPush es stack set).1) ∧
    (∀ x ∈ (epsPush es stack set).1, x ∈ stack ∨ x ∈ (epsPush es stack set).2) ∧
    (epsPush es stack set).1.length + unseen n (epsPush es stack set).2 =
      stack.length + unseen n set
  | [], stack, set, hs, _ => by
    simp only [epsPush]
    exact ⟨hs, by simp, fun x h => .inl h, fun x h => h, fun x h => .inl h, trivial⟩
  | e :: es, stack, set, hs, hb => by
    have hb' : ∀ e ∈ es, e.dst < n.states.length := fun x hx => hb x (by simp [hx])
    cases hl : e.label with
    | some m =>
      have ih := epsPush_spec n es stack set hs hb'
      simp only [epsPush, hl]
      refine ⟨ih.1, fun x => (ih.2.1 x).trans ?_, ih.2.2⟩
      simp [hl]
    | none =>
      simp only [epsPush, hl]
      by_cases hd : e.dst ∈ set
      · simp only [hd, if_true]
        have ih := epsPush_spec n es stack set hs hb'
        refine ⟨ih.1, fun x => (ih.2.1 x).trans ?_, ih.2.2⟩
        simp only [List.mem_cons, exists_eq_or_imp, hl, true_and]
        constructor
        · rintro (h | h)
          · exact .inl h
          · exact .inr (.inr h)
        · rintro (h | rfl | h)
          · exact .inl h
          · exact .inl hd
          · exact .inr h
      · simp only [hd, if_false]
        obtain ⟨i1, i2, i3, i4, i5, i6⟩ := epsPush_spec n es (e.dst :: stack) (oinsert e.dst set)
          (sorted_oinsert hs) hb'
        refine ⟨i1, fun x => (i2 x).trans ?_, ?_, ?_, ?_, ?_⟩
        · simp only [List.mem_cons, exists_eq_or_imp, hl, true_and, mem_oinsert]
          constructor
          · rintro ((rfl | h) | h)
            · exact .inr (.inl rfl)
            · exact .inl h
            · exact .inr (.inr h)
          · rintro (h | rfl | h)
            · exact .inl (.inr h)
            · exact .inl (.inl rfl)
            · exact .inr h
        · intro x hx
          rcases i3 x hx with h | h
          · rcases mem_oinsert.mp h with rfl | h
            · exact .inr (i4 _ (by simp))
            · exact .inl h
          · exact .inr h
        · intro x hx; exact i4 x (by simp [hx])
        · intro x hx
          rcases i5 x hx with h | h
          · rcases List.mem_cons.mp h with rfl | h
            · exact .inr ((i2 _).mpr (.inl (by simp [mem_oinsert])))
            · exact .inl h
          · exact .inr h
        · have := unseen_oinsert (n := n) (hb e (by simp)) hd
          simp only [List.length_cons] at i6
          omega

structure EInv (n : Nfa) (seed stack set : List Nat) : Prop where
  sorted : Sorted set
  seeds : ∀ x ∈ seed, x ∈ set
  pend : ∀ x ∈ stack, x ∈ set
  sound : ∀ x ∈ set, ∃ s ∈ seed, EpsReach n.visible s x
  closed : ∀ x ∈ set, x ∈ stack ∨ ∀ e ∈ n.edgeIter x, e.label = none → e.dst ∈ set

theorem epsLoop_spec {n : Nfa} (hb : ∀ e ∈ n.edges, e.dst < n.states.length) {seed : List Nat} :
    ∀ (fuel : Nat) (stack set : List Nat), EInv n seed stack set →
    stack.length + unseen n set ≤ fuel →
    ∃ r, epsLoop n fuel stack set = .ok r ∧ EInv n seed [] r
  | _, [], set, h, _ => ⟨set, by unfold epsLoop; rfl, h⟩
  | 0, s :: stack, set, h, hf => by simp at hf
  | fuel + 1, s :: stack, set, h, hf => by
    obtain ⟨i1, i2, i3, i4, i5, i6⟩ := epsPush_spec n (n.edgeIter s) stack set h.sorted
      (fun e he => hb e (Nfa.edgeIter_src he).2.1)
    unfold epsLoop
    have hss := h.pend s (by simp)
    refine epsLoop_spec hb fuel _ _ ⟨i1, ?_, ?_, ?_, ?_⟩ (by simp at hf; omega)
    · intro x hx; exact (i2 x).mpr (.inl (h.seeds x hx))
    · intro x hx
      rcases i5 x hx with hx | hx
      · exact (i2 x).mpr (.inl (h.pend x (by simp [hx])))
      · exact hx
    · intro x hx
      rcases (i2 x).mp hx with hx | ⟨e, he, h1, rfl⟩
      · exact h.sound x hx
      · obtain ⟨s0, hs0, p⟩ := h.sound s hss
        have hsrc := (Nfa.edgeIter_src he).1
        refine ⟨s0, hs0, Nfa.EpsReach.snoc (e := e) (by rw [hsrc]; exact p) ?_ h1⟩
        rw [Nfa.mem_visible, hsrc]; exact he
    · intro x hx
      rcases i3 x hx with hx' | hx'
      · by_cases hxs : x = s
        · subst hxs
          exact .inr fun e he hl => (i2 _).mpr (.inr ⟨e, he, hl, rfl⟩)
        · rcases h.closed x hx' with hst | hcl
          · rcases List.mem_cons.mp hst with rfl | hst
            · exact absurd rfl hxs
            · exact .inl (i4 x hst)
          · exact .inr fun e he hl => (i2 _).mpr (.inl (hcl e he hl))
      · exact .inl hx'

theorem epsClosure_ok {n : Nfa} (hb : ∀ e ∈ n.edges, e.dst < n.states.length) {set : List Nat}
    (hs : Sorted set) : ∃ r, epsClosure n set = .ok r ∧ Sorted r ∧
      ∀ x, x ∈ r ↔ ∃ s ∈ set, EpsReach n.visible s x := by
  have hu : unseen n set ≤ n.states.length := by
    unfold unseen
    exact Nat.le_trans (List.length_filter_le _ _) (by simp)
  obtain ⟨r, h1, h2⟩ := epsLoop_spec hb (seed := set) (set.length + n.states.length) set.reverse set
    ⟨hs, fun x hx => hx, by simp, fun x hx => ⟨x, hx, .refl x⟩, by
      intro x hx; exact .inl (by simpa using hx)⟩ (by simp; omega)
  refine ⟨r, h1, h2.sorted, fun x => ⟨h2.sound x, ?_⟩⟩
  rintro ⟨s, hs, p⟩
  have := h2.seeds s hs
  clear hs
  induction p with
  | refl s => exact this
  | step a b c _ ih =>
    apply ih
    rcases h2.closed _ this with h | h
    · simp at h
    · refine h _ ?_ c
      rw [Nfa.mem_visible] at a; rw [← b]; exact a

theorem moveSet_spec (n : Nfa) (set : List Nat) (l : Match) :
    Sorted (moveSet n set l) ∧ ∀ x, x ∈ moveSet n set l ↔ ∃ s ∈ set, ∃ e ∈ n.edgeIter s, ∃ m,
      e.label = some m ∧ m.containsU32 l.lo = true ∧ m.containsU32 (l.hi - 1) = true ∧ e.dst = x := by
  have inner : ∀ (es : List NEdge) (ret : List Nat), Sorted ret →
      Sorted (es.foldl (fun ret e =>
        match e.label with
        | some m => if m.containsU32 l.lo && m.containsU32 (l.hi - 1) then oinsert e.dst ret else ret
        | none => ret) ret) ∧
      ∀ x, x ∈ es.foldl (fun ret e =>
        match e.label with
        | some m => if m.containsU32 l.lo && m.containsU32 (l.hi - 1) then oinsert e.dst ret else ret
        | none => ret) ret ↔ x ∈ ret ∨ ∃ e ∈ es, ∃ m, e.label = some m ∧ m.containsU32 l.lo = true ∧
          m.containsU32 (l.hi - 1) = true ∧ e.dst = x := by
    intro es
    induction es with
    | nil => intro ret h; simp [h]
    | cons e es ih =>
      intro ret h
      simp only [List.foldl_cons]
      cases hl : e.label with
      | none =>
        simp only
        obtain ⟨i1, i2⟩ := ih ret h
        refine ⟨i1, fun x => (i2 x).trans ?_⟩
        simp [hl]
      | some m =>
        simp only
        by_cases hc : (m.containsU32 l.lo && m.containsU32 (l.hi - 1)) = true
        · rw [if_pos hc]
          obtain ⟨i1, i2⟩ := ih _ (sorted_oinsert (a := e.dst) h)
          refine ⟨i1, fun x => (i2 x).trans ?_⟩
          rw [Bool.and_eq_true] at hc
          simp only [mem_oinsert, List.mem_cons, exists_eq_or_imp, hl, Option.some.injEq]
          constructor
          · rintro ((rfl | h) | h)
            · exact .inr (.inl ⟨m, rfl, hc.1, hc.2, rfl⟩)
            · exact .inl h
            · exact .inr (.inr h)
          · rintro (h | ⟨_, rfl, _, _, rfl⟩ | h)
            · exact .inl (.inr h)
            · exact .inl (.inl rfl)
            · exact .inr h
        · rw [if_neg hc]
          obtain ⟨i1, i2⟩ := ih ret h
          refine ⟨i1, fun x => (i2 x).trans ?_⟩
          rw [Bool.and_eq_true] at hc
          simp only [List.mem_cons, exists_eq_or_imp, hl, Option.some.injEq]
          constructor
          · rintro (h | h)
            · exact .inl h
            · exact .inr (.inr h)
          · rintro (h | ⟨_, rfl, h1, h2, rfl⟩ | h)
            · exact .inl h
            · exact absurd ⟨h1, h2⟩ hc
            · exact .inr h
  have outer : ∀ (ss : List Nat) (ret : List Nat), Sorted ret →
      Sorted (ss.foldl (fun ret s => (n.edgeIter s).foldl (fun ret e =>
        match e.label with
        | some m => if m.containsU32 l.lo && m.containsU32 (l.hi - 1) then oinsert e.dst ret else ret
        | none => ret) ret) ret) ∧
      ∀ x, x ∈ ss.foldl (fun ret s => (n.edgeIter s).foldl (fun ret e =>
        match e.label with
        | some m => if m.containsU32 l.lo && m.containsU32 (l.hi - 1) then oinsert e.dst ret else ret
        | none => ret) ret) ret ↔ x ∈ ret ∨ ∃ s ∈ ss, ∃ e ∈ n.edgeIter s, ∃ m, e.label = some m ∧
          m.containsU32 l.lo = true ∧ m.containsU32 (l.hi - 1) = true ∧ e.dst = x := by
    intro ss
    induction ss with
    | nil => intro ret h; simp [h]
    | cons s ss ih =>
      intro ret h
      simp only [List.foldl_cons]
      obtain ⟨j1, j2⟩ := inner (n.edgeIter s) ret h
      obtain ⟨i1, i2⟩ := ih _ j1
      refine ⟨i1, fun x => (i2 x).trans ?_⟩
      rw [j2]
      simp only [List.mem_cons, exists_eq_or_imp, or_assoc]
  obtain ⟨h1, h2⟩ := outer set [] List.Pairwise.nil
  exact ⟨h1, fun x => (h2 x).trans (by simp)⟩

end Dfa
end Verif
