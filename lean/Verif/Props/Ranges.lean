import Verif.Spec.Ranges
import Verif.Proofs.OverlapTame

/-! # C05, C06: `remove_overlap` -/

namespace Verif.Props
open Verif Verif.Spec

/-- C05.  For every set of ranges `remove_overlap` returns (it terminates and no
assertion fires); what it returns is non-empty ranges covering exactly the input. -/
theorem C05_removeOverlap (ranges : List Match) :
    ∃ out, Overlap.removeOverlap (ofList ranges) = .ok out ∧
      (∀ p ∈ out, ∃ c, Mem c p) ∧
      (∀ c, (∃ p ∈ out, Mem c p) ↔ ∃ r ∈ ranges, Mem c r) := by
  obtain ⟨out, h1, h2, h3, _⟩ := Overlap.removeOverlap_ok (ofList ranges)
  refine ⟨out, h1, ?_, ?_⟩
  · intro p hp
    exact ⟨p.lo, Nat.le_refl _, h2 p hp⟩
  · intro c
    rw [show (∃ p ∈ out, Mem c p) ↔ ∃ p ∈ out, Overlap.In c p from Iff.rfl, h3]
    simp only [mem_ofList]
    rfl

/-- C05.  Every code point of an input range lies in an output range contained in
that input range, so no distinction the input makes is lost. -/
theorem C05_refines (ranges : List Match) (out : List Match)
    (ho : Overlap.removeOverlap (ofList ranges) = .ok out) (r : Match) (hr : r ∈ ranges) (c : Nat)
    (hc : Mem c r) : ∃ p ∈ out, Mem c p ∧ Within p r := by
  obtain ⟨out', h1, _, _, h4⟩ := Overlap.removeOverlap_ok (ofList ranges)
  rw [h1] at ho
  cases ho
  exact h4 r (mem_ofList.mpr hr) c hc

example : Overlap.removeOverlap (ofList [⟨97, 123⟩, ⟨105, 106⟩, ⟨102, 103⟩]) =
    .ok [⟨97, 102⟩, ⟨102, 103⟩, ⟨103, 105⟩, ⟨105, 106⟩, ⟨106, 123⟩] := by decide +kernel

theorem lam_iff {a b : Match} : Overlap.Lam a b ↔ Laminar a b := by
  unfold Overlap.Lam Overlap.Meet
  constructor
  · rintro (h | h | h)
    · exact .inl fun c h1 h2 => h (by unfold Mem at h1 h2; omega)
    · exact .inr (.inr fun c h1 => by unfold Mem at *; omega)
    · exact .inr (.inl fun c h1 => by unfold Mem at *; omega)
  · rintro (h | h | h)
    · exact .inl fun hm => h (max a.lo b.lo) ⟨by omega, by omega⟩ ⟨by omega, by omega⟩
    · by_cases hm : max a.lo b.lo < min a.hi b.hi
      · refine .inr (.inr ?_)
        have h1 := h a.lo ⟨by omega, by omega⟩
        have h2 := h (a.hi - 1) ⟨by omega, by omega⟩
        unfold Mem at h1 h2; omega
      · exact .inl hm
    · by_cases hm : max a.lo b.lo < min a.hi b.hi
      · refine .inr (.inl ?_)
        have h1 := h b.lo ⟨by omega, by omega⟩
        have h2 := h (b.hi - 1) ⟨by omega, by omega⟩
        unfold Mem at h1 h2; omega
      · exact .inl hm

/-- C06, partial: for at most three different ranges, and for any number of ranges of which those that overlap
without being nested neither contain a third nor lie in one (in particular if any two are nested or disjoint, or if
none lies in another), the output is pairwise disjoint and every output range is contained in or disjoint from every
input range.  Missing: arbitrary input, where the statement is false (`C06_false`, with four ranges). -/
theorem C06_atoms_partial (ranges : List Match) (hl : (ofList ranges).length ≤ 3 ∨ Tame ranges) :
    ∃ out, Overlap.removeOverlap (ofList ranges) = .ok out ∧
      out.Pairwise Disjoint ∧ ∀ p ∈ out, ∀ r ∈ ranges, Within p r ∨ Disjoint p r := by
  obtain ⟨out, h1, h2⟩ := Overlap.removeOverlap_tame (sorted_ofList ranges) (hl.imp_right fun hl a ha b hb hab c hc hcn hca => by
    simp only [mem_ofList] at ha hb hc
    rw [lam_iff] at hab
    obtain ⟨n1, n2⟩ := hl a ha b hb hab c hc ⟨c.lo, Nat.le_refl _, hcn⟩ hca
    by_cases hm : Overlap.Meet a c
    · left
      rw [lam_iff]
      rintro (h | h | h)
      · unfold Overlap.Meet at hm
        exact h (max a.lo c.lo) ⟨by omega, by omega⟩ ⟨by omega, by omega⟩
      · exact n2 h
      · exact n1 h
    · exact .inr hm)
  refine ⟨out, h1, h2, ?_⟩
  intro p hp r hr
  by_cases hd : Disjoint p r
  · exact .inr hd
  · left
    unfold Disjoint at hd
    simp only [not_forall, not_not] at hd
    obtain ⟨c, hc1, hc2⟩ := hd
    obtain ⟨p', hp', h3, h4⟩ := C05_refines ranges out h1 r hr c hc2
    have : p' = p := by
      obtain ⟨i, hi, rfl⟩ := List.mem_iff_getElem.mp hp
      obtain ⟨j, hj, rfl⟩ := List.mem_iff_getElem.mp hp'
      rcases Nat.lt_trichotomy i j with hij | hij | hij
      · exact absurd h3 ((List.pairwise_iff_getElem.mp h2) i j hi hj hij c hc1)
      · subst hij; rfl
      · exact absurd hc1 ((List.pairwise_iff_getElem.mp h2) j i hj hi hij c h3)
    exact this ▸ h4

/-- Ranges any two of which are nested or disjoint. -/
theorem tame_of_laminar {rs : List Match} (hl : ∀ a ∈ rs, ∀ b ∈ rs, Laminar a b) : Tame rs :=
  fun a ha b hb h => absurd (hl a ha b hb) h

/-- `[a-f]`, `[d-k]`, `[j-p]`, `[n-z]` overlap without being nested. -/
example : Tame [⟨97, 103⟩, ⟨100, 108⟩, ⟨106, 113⟩, ⟨110, 123⟩] ∧
    ¬ Laminar ⟨97, 103⟩ ⟨100, 108⟩ ∧
    Overlap.removeOverlap (ofList [⟨97, 103⟩, ⟨100, 108⟩, ⟨106, 113⟩, ⟨110, 123⟩]) =
      .ok [⟨97, 100⟩, ⟨100, 103⟩, ⟨103, 106⟩, ⟨106, 108⟩, ⟨108, 110⟩, ⟨110, 113⟩, ⟨113, 123⟩] := by
  have h : ∀ x ∈ [(⟨97, 103⟩ : Match), ⟨100, 108⟩, ⟨106, 113⟩, ⟨110, 123⟩],
      ∀ y ∈ [(⟨97, 103⟩ : Match), ⟨100, 108⟩, ⟨106, 113⟩, ⟨110, 123⟩], x ≠ y → ¬ Within x y := by
    intro x hx y hy hne hw
    simp only [List.mem_cons, List.not_mem_nil, or_false] at hx hy
    rcases hx with rfl | rfl | rfl | rfl <;> rcases hy with rfl | rfl | rfl | rfl <;>
      first
        | exact hne rfl
        | (have h1 := hw _ ⟨Nat.le_refl _, by decide⟩; unfold Mem at h1; simp at h1; done)
        | (have h1 := hw 102 ⟨by decide, by decide⟩; unfold Mem at h1; simp at h1; done)
        | (have h1 := hw 107 ⟨by decide, by decide⟩; unfold Mem at h1; simp at h1; done)
        | (have h1 := hw 112 ⟨by decide, by decide⟩; unfold Mem at h1; simp at h1; done)
        | (have h1 := hw 122 ⟨by decide, by decide⟩; unfold Mem at h1; simp at h1; done)
  refine ⟨fun a ha b _ _ c hc _ hne => ⟨h c hc a ha hne, h a ha c hc (Ne.symm hne)⟩, ?_, by rfl⟩
  rintro (h1 | h1 | h1)
  · exact h1 100 ⟨by decide, by decide⟩ ⟨by decide, by decide⟩
  · exact h _ (by simp) _ (by simp) (by decide) h1
  · exact h _ (by simp) _ (by simp) (by decide) h1

/-- The ranges of the tokens `add`, `a` and `[a-z]+` are laminar. -/
example : ∀ a ∈ [(⟨97, 123⟩ : Match), ⟨97, 98⟩, ⟨100, 101⟩], ∀ b ∈ [(⟨97, 123⟩ : Match), ⟨97, 98⟩, ⟨100, 101⟩],
    Laminar a b := by
  intro a ha b hb
  simp only [List.mem_cons, List.not_mem_nil, or_false] at ha hb
  rcases ha with rfl | rfl | rfl <;> rcases hb with rfl | rfl | rfl <;>
    simp only [Laminar, Disjoint, Within, Mem] <;>
    first
      | (right; left; intro c hc; omega)
      | (right; right; intro c hc; omega)
      | (left; intro c hc; omega)

/-- C06 is false of the code: the ranges of `c`, `[a-d]`, `[b-j]`, `[c-t]` produce
two overlapping pieces. -/
theorem C06_false : ¬ ∀ ranges out, Overlap.removeOverlap (ofList ranges) = .ok out →
    out.Pairwise Disjoint := by
  intro h
  have hout : Overlap.removeOverlap (ofList [(⟨99, 100⟩ : Match), ⟨97, 101⟩, ⟨98, 107⟩, ⟨99, 117⟩]) =
      .ok [⟨97, 98⟩, ⟨98, 99⟩, ⟨99, 101⟩, ⟨99, 100⟩, ⟨100, 101⟩, ⟨101, 107⟩, ⟨107, 117⟩] := by
    rfl
  have h1 := h _ _ hout
  have h2 : Disjoint ⟨99, 101⟩ ⟨99, 100⟩ := by
    simp only [List.pairwise_cons] at h1
    exact h1.2.2.1 _ (by simp)
  exact h2 99 ⟨by decide, by decide⟩ ⟨by decide, by decide⟩

end Verif.Props
