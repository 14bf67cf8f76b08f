import Mathlib.Data.List.Perm.Subperm
import Verif.Proofs.OverlapLaminar

/-! The number of pieces that `remove_overlap` makes (C67). -/

namespace Verif
namespace Overlap
open Verif

/-- Every bound of a piece is a bound of a range. -/
theorem Ins.bounds {r l l'} (h : Ins r l l') : ∀ p ∈ l', (∃ q ∈ r :: l, p.lo = q.lo ∨ p.lo = q.hi) ∧
    ∃ q ∈ r :: l, p.hi = q.lo ∨ p.hi = q.hi := by
  induction h with
  | empty _ => exact fun p hp => ⟨⟨p, by simp [hp], .inl rfl⟩, p, by simp [hp], .inr rfl⟩
  | nil _ => exact fun p hp => ⟨⟨p, hp, .inl rfl⟩, p, hp, .inr rfl⟩
  | @skip r q l l' _ _ _ ih =>
    intro p hp
    rcases List.mem_cons.mp hp with rfl | hp
    · exact ⟨⟨p, by simp, .inl rfl⟩, p, by simp, .inr rfl⟩
    · obtain ⟨⟨a, ha, h1⟩, b, hb, h2⟩ := ih p hp
      have hsub : ∀ x ∈ r :: l, x ∈ r :: q :: l := by simp; tauto
      exact ⟨⟨a, hsub a ha, h1⟩, b, hsub b hb, h2⟩
  | same _ => exact fun p hp => ⟨⟨p, by simp at hp ⊢; tauto, .inl rfl⟩, p, by simp at hp ⊢; tauto, .inr rfl⟩
  | @split r o l l₁ l₂ _ _ _ _ ih1 ih2 =>
    have m1 : ∃ q ∈ r :: o :: l, max r.lo o.lo = q.lo ∨ max r.lo o.lo = q.hi := by
      rcases Nat.le_total r.lo o.lo with h | h
      · exact ⟨o, by simp, .inl (by omega)⟩
      · exact ⟨r, by simp, .inl (by omega)⟩
    have m2 : ∃ q ∈ r :: o :: l, min r.lo o.lo = q.lo ∨ min r.lo o.lo = q.hi := by
      rcases Nat.le_total r.lo o.lo with h | h
      · exact ⟨r, by simp, .inl (by omega)⟩
      · exact ⟨o, by simp, .inl (by omega)⟩
    have m3 : ∃ q ∈ r :: o :: l, min r.hi o.hi = q.lo ∨ min r.hi o.hi = q.hi := by
      rcases Nat.le_total r.hi o.hi with h | h
      · exact ⟨r, by simp, .inr (by omega)⟩
      · exact ⟨o, by simp, .inr (by omega)⟩
    have m4 : ∃ q ∈ r :: o :: l, max r.hi o.hi = q.lo ∨ max r.hi o.hi = q.hi := by
      rcases Nat.le_total r.hi o.hi with h | h
      · exact ⟨o, by simp, .inr (by omega)⟩
      · exact ⟨r, by simp, .inr (by omega)⟩
    have up1 : ∀ x, (∃ q ∈ midOf r o :: l, x = q.lo ∨ x = q.hi) → ∃ q ∈ r :: o :: l, x = q.lo ∨ x = q.hi := by
      rintro x ⟨q, hq, h⟩
      rcases List.mem_cons.mp hq with rfl | hq
      · rcases h with rfl | rfl
        · exact m1
        · exact m3
      · exact ⟨q, by simp [hq], h⟩
    have up2 : ∀ x, (∃ q ∈ mxOf r o :: l₁, x = q.lo ∨ x = q.hi) → ∃ q ∈ r :: o :: l, x = q.lo ∨ x = q.hi := by
      rintro x ⟨q, hq, h⟩
      rcases List.mem_cons.mp hq with rfl | hq
      · rcases h with rfl | rfl
        · exact m3
        · exact m4
      · rcases h with rfl | rfl
        · exact up1 _ (ih1 q hq).1
        · exact up1 _ (ih1 q hq).2
    intro p hp
    rcases List.mem_cons.mp hp with rfl | hp
    · exact ⟨m2, m1⟩
    · exact ⟨up2 _ (ih2 p hp).1, up2 _ (ih2 p hp).2⟩

theorem InsAll.bounds {rs l l'} (h : InsAll rs l l') : ∀ p ∈ l', (∃ q ∈ rs ++ l, p.lo = q.lo ∨ p.lo = q.hi) ∧
    ∃ q ∈ rs ++ l, p.hi = q.lo ∨ p.hi = q.hi := by
  induction h with
  | nil => exact fun p hp => ⟨⟨p, by simpa using hp, .inl rfl⟩, p, by simpa using hp, .inr rfl⟩
  | @cons r rs l l₁ l₂ h1 _ ih =>
    have up : ∀ x, (∃ q ∈ rs ++ l₁, x = q.lo ∨ x = q.hi) → ∃ q ∈ (r :: rs) ++ l, x = q.lo ∨ x = q.hi := by
      rintro x ⟨q, hq, h⟩
      rcases List.mem_append.mp hq with hq | hq
      · exact ⟨q, by simp [hq], h⟩
      · have : ∃ q ∈ r :: l, x = q.lo ∨ x = q.hi := by
          rcases h with rfl | rfl
          · exact (h1.bounds q hq).1
          · exact (h1.bounds q hq).2
        obtain ⟨q, hq, h⟩ := this
        exact ⟨q, by simp at hq ⊢; tauto, h⟩
    intro p hp
    exact ⟨up _ (ih p hp).1, up _ (ih p hp).2⟩

theorem InsAll.total_le {rs l l'} (h : InsAll rs l l') : total l' ≤ total l + total rs := by
  induction h with
  | nil => simp
  | cons h1 _ ih => have := h1.total_le; simp only [total_cons]; omega

theorem total_filter (l : List Match) : (l.filter fun r => !r.isEmpty).length ≤ total l := by
  induction l with
  | nil => simp
  | cons m l ih =>
    rw [List.filter_cons]
    split
    · rename_i h
      have : m.lo < m.hi := by simpa [Match.isEmpty] using h
      simp only [List.length_cons, total_cons, len]; omega
    · simp only [total_cons]; omega

theorem total_oinsert (m : Match) (l : List Match) : total (oinsert m l) ≤ len m + total l := by
  induction l with
  | nil => simp [oinsert]
  | cons p l ih =>
    unfold oinsert
    split
    · simp
    · split
      · simp only [total_cons] at ih ⊢; omega
      · simp only [total_cons]; omega

theorem total_ofList (l : List Match) : total (ofList l) ≤ total l := by
  suffices h : ∀ (l acc : List Match), total (l.foldl (fun a m => oinsert m a) acc) ≤ total acc + total l by
    exact Nat.le_trans (h l []) (by simp)
  intro l
  induction l with
  | nil => simp
  | cons m l ih =>
    intro acc
    have := ih (oinsert m acc)
    have := total_oinsert m acc
    simp only [List.foldl_cons, total_cons]; omega

theorem exists_last : ∀ (l : List Match), l ≠ [] → ∃ p ∈ l, ∀ q ∈ l, q.hi ≤ p.hi
  | [], h => absurd rfl h
  | [p], _ => ⟨p, by simp, by simp⟩
  | p :: q :: l, _ => by
    obtain ⟨r, hr, h⟩ := exists_last (q :: l) (by simp)
    rcases Nat.le_total r.hi p.hi with h1 | h1
    · exact ⟨p, by simp, fun x hx => by
        rcases List.mem_cons.mp hx with rfl | hx
        · exact Nat.le_refl _
        · exact Nat.le_trans (h x hx) h1⟩
    · exact ⟨r, by simp [hr], fun x hx => by
        rcases List.mem_cons.mp hx with rfl | hx
        · exact h1
        · exact h x hx⟩

/-- Disjoint pieces between `2 k` bounds are fewer than `2 k`. -/
theorem pieces_lt {out rs : List Match} (hd : out.Pairwise fun a b => ∀ c, In c a → ¬ In c b) (hn : ∀ p ∈ out, p.lo < p.hi)
    (hb : ∀ p ∈ out, (∃ q ∈ rs, p.lo = q.lo ∨ p.lo = q.hi) ∧ ∃ q ∈ rs, p.hi = q.lo ∨ p.hi = q.hi) (hne : out ≠ []) :
    out.length < 2 * rs.length := by
  obtain ⟨m, hm, hmax⟩ := exists_last out hne
  have hnd : (m.hi :: out.map (·.lo)).Nodup := by
    rw [List.nodup_cons]
    constructor
    · intro h
      obtain ⟨p, hp, e⟩ := List.mem_map.mp h
      have := hn p hp; have := hmax p hp; omega
    · rw [List.Nodup, List.pairwise_map]
      refine List.Pairwise.imp_of_mem ?_ hd
      intro a b ha hb h e
      have h1 := hn a ha; have h2 := hn b hb
      exact h a.lo ⟨Nat.le_refl _, h1⟩ ⟨by omega, by omega⟩
  have hsub : (m.hi :: out.map (·.lo)) ⊆ rs.map (·.lo) ++ rs.map (·.hi) := by
    intro x hx
    have : ∃ q ∈ rs, x = q.lo ∨ x = q.hi := by
      rcases List.mem_cons.mp hx with rfl | hx
      · exact (hb m hm).2
      · obtain ⟨p, hp, rfl⟩ := List.mem_map.mp hx
        exact (hb p hp).1
    obtain ⟨q, hq, rfl | rfl⟩ := this
    · exact List.mem_append_left _ (List.mem_map_of_mem hq)
    · exact List.mem_append_right _ (List.mem_map_of_mem hq)
  have := (List.subperm_of_subset hnd hsub).length_le
  simp at this
  omega

end Overlap

end Verif
