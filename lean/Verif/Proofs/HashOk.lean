import Verif.Model.Hash
import Verif.Proofs.ItemsOk
import Mathlib.Data.Fintype.Pigeonhole

/-! # Proofs about the hash of cores -/

namespace Verif.Hash
open Verif Spec Grammar ItemSet

theorem le32_inj {a b : Nat} (ha : a < 2 ^ 32) (hb : b < 2 ^ 32) (h : le32 a = le32 b) : a = b := by
  simp only [le32, List.cons.injEq, and_true] at h
  obtain ⟨h0, h1, h2, h3⟩ := h
  omega

theorem le32_len (a : Nat) : (le32 a).length = 4 := rfl

theorem itemBytes_inj {a b : Item} (ha : a.1 < 2 ^ 32 ∧ a.2 < 2 ^ 32) (hb : b.1 < 2 ^ 32 ∧ b.2 < 2 ^ 32)
    (h : itemBytes a = itemBytes b) : a = b := by
  obtain ⟨h1, h2⟩ := List.append_inj h rfl
  exact Prod.ext (le32_inj ha.1 hb.1 h1) (le32_inj ha.2 hb.2 h2)

theorem itemBytes_len (a : Item) : (itemBytes a).length = 8 := rfl

theorem coreBytes_inj : ∀ {a b : List Item}, (∀ it ∈ a, it.1 < 2 ^ 32 ∧ it.2 < 2 ^ 32) →
    (∀ it ∈ b, it.1 < 2 ^ 32 ∧ it.2 < 2 ^ 32) → coreBytes a = coreBytes b → a = b
  | [], [], _, _, _ => rfl
  | [], y :: b, _, _, h => by
    have := congrArg List.length h
    simp [coreBytes, itemBytes_len] at this
    omega
  | x :: a, [], _, _, h => by
    have := congrArg List.length h
    simp [coreBytes, itemBytes_len] at this
  | x :: a, y :: b, ha, hb, h => by
    simp only [coreBytes, List.flatMap_cons] at h
    obtain ⟨h1, h2⟩ := List.append_inj h rfl
    rw [itemBytes_inj (ha x (by simp)) (hb y (by simp)) h1,
      coreBytes_inj (fun it hi => ha it (by simp [hi])) (fun it hi => hb it (by simp [hi])) h2]

/-! ## the hash has 64 bits -/

theorem add64_lt (a b : Nat) : add64 a b < 2 ^ 64 := Nat.mod_lt _ (by decide)
theorem rotl_lt (a n : Nat) : rotl a n < 2 ^ 64 := Nat.mod_lt _ (by decide)

theorem finish_lt (s : Sip) : s.finish < 2 ^ 64 := by
  have h : ∀ t : Sip, (t.round.v0 ^^^ t.round.v1 ^^^ t.round.v2 ^^^ t.round.v3) < 2 ^ 64 := by
    intro t
    unfold Sip.round
    exact Nat.xor_lt_two_pow (Nat.xor_lt_two_pow (Nat.xor_lt_two_pow (add64_lt _ _)
      (Nat.xor_lt_two_pow (rotl_lt _ _) (add64_lt _ _))) (rotl_lt _ _)) (Nat.xor_lt_two_pow (rotl_lt _ _) (add64_lt _ _))
  exact h _

theorem coreHash_lt (c : List Item) : coreHash c < 2 ^ 64 := finish_lt _

/-- The `k`-th of `2 ^ 64 + 1` cores of at most one item. -/
def nth (k : Fin (2 ^ 64 + 1)) : List Item := if k.1 < 2 ^ 64 then [(k.1 / 2 ^ 32, k.1 % 2 ^ 32)] else []

theorem nth_inj {a b : Fin (2 ^ 64 + 1)} (h : nth a = nth b) : a = b := by
  unfold nth at h
  split at h <;> split at h
  · simp only [List.cons.injEq, Prod.mk.injEq, and_true] at h
    exact Fin.ext (by have := Nat.div_add_mod a.1 (2 ^ 32); have := Nat.div_add_mod b.1 (2 ^ 32); rw [h.1, h.2] at *; omega)
  · cases h
  · cases h
  · exact Fin.ext (by have := a.2; have := b.2; omega)

theorem nth_ok (k : Fin (2 ^ 64 + 1)) : (nth k).length ≤ 1 ∧ ∀ it ∈ nth k, it.1 < 2 ^ 32 ∧ it.2 < 2 ^ 32 := by
  unfold nth
  split
  · rename_i h
    refine ⟨Nat.le_refl _, fun it hi => ?_⟩
    simp only [List.mem_singleton] at hi
    subst hi
    exact ⟨Nat.div_lt_of_lt_mul (by simpa using h), Nat.mod_lt _ (by decide)⟩
  · simp

theorem collide : ∃ a b : List Item, a ≠ b ∧ a.length ≤ 1 ∧ b.length ≤ 1 ∧ (∀ it ∈ a ++ b, it.1 < 2 ^ 32 ∧ it.2 < 2 ^ 32) ∧
    coreHash a = coreHash b := by
  obtain ⟨x, y, hne, h⟩ := Fintype.exists_ne_map_eq_of_card_lt
    (fun k : Fin (2 ^ 64 + 1) => (⟨coreHash (nth k), coreHash_lt _⟩ : Fin (2 ^ 64)))
    (by rw [Fintype.card_fin, Fintype.card_fin]; exact Nat.lt_succ_self _)
  refine ⟨nth x, nth y, fun e => hne (nth_inj e), (nth_ok x).1, (nth_ok y).1, fun it hi => ?_, congrArg Fin.val h⟩
  rcases List.mem_append.mp hi with hi | hi
  · exact (nth_ok x).2 it hi
  · exact (nth_ok y).2 it hi

theorem core_fits {g : Grammar} (hok : GOk g) {s : ItemSet} (hw : WFSet s) (hr : Reach g (Has s))
    (hp : g.prods.length ≤ 2 ^ 32) (hi : ∀ p ∈ g.prods, p.inputs.length < 2 ^ 32) :
    ∀ it ∈ coreOf s, it.1 < 2 ^ 32 ∧ it.2 < 2 ^ 32 := by
  intro it hit
  obtain ⟨⟨_, l⟩, hm, rfl⟩ := List.mem_map.mp hit
  obtain ⟨la, hla⟩ := List.exists_mem_of_ne_nil l (hw.las _ l hm).1
  obtain ⟨⟨p, h1, h2⟩, _⟩ := reach_rng hok hr _ la ⟨l, hm, hla⟩
  have := (List.getElem?_eq_some_iff.mp h1).1
  exact ⟨Nat.lt_of_lt_of_le this hp, by show _ < _; exact Nat.lt_of_le_of_lt h2 (hi p (List.mem_of_getElem? h1))⟩

end Verif.Hash
