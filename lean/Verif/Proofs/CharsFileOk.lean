import Verif.Model.CharsFile
import Verif.Spec.CharsFile
import Verif.Proofs.Order
import Verif.Proofs.ShowOk
import Verif.Proofs.LexTablesOk

/-! # Proofs about printed ranges and chars.ts -/

namespace Verif
open Spec

theorem toNat_ofNat_small {n : Nat} (h : n < 256) : (Char.ofNat n).toNat = n := by
  unfold Char.ofNat
  rw [dif_pos (Or.inl (by omega))]
  rfl

theorem byteChar_toNat (n : Nat) : (byteChar n).toNat = n % 256 := by
  exact toNat_ofNat_small (Nat.mod_lt _ (by omega))

theorem byteChar_eq {n : Nat} {c : Char} (hn : n < 256) : byteChar n = c ↔ n = c.toNat := by
  constructor
  · rintro rfl; rw [byteChar_toNat, Nat.mod_eq_of_lt hn]
  · rintro rfl
    rw [byteChar, Nat.mod_eq_of_lt hn, Char.ofNat_toNat]

/-- A number and what follows it can be read back. -/
theorem digits_append {a b : Nat} {x : Char} {s t : Str} (hx : Spec.isDigit x = false)
    (h : LexGen.digits a ++ x :: s = LexGen.digits b ++ x :: t) : a = b ∧ s = t := by
  have hd : ∀ n, x ∉ LexGen.digits n := fun n hm => by
    have := Spec.digits_chars n x hm
    simp [hx] at this
  obtain ⟨h1, h2⟩ := Show.split_unique (hd a) (hd b) h
  exact ⟨Spec.digits_inj h1, h2⟩

namespace CharsFile

theorem mem_invisible (n : Nat) : n ∈ invisible ↔ Invisible n := by
  simp only [invisible, invisibleRuns, List.mem_flatMap, List.mem_cons, List.not_mem_nil, or_false, Invisible]
  constructor
  · rintro ⟨r, hr, hn⟩
    rcases hr with h | h | h | h | h | h | h | h | h | h | h | h | h | h | h | h | h | h | h | h | h | h | h | h | h | h <;>
      (subst h; simp only [List.mem_range'_1] at hn; omega)
  · intro h
    have key : ∀ a k, (a, k) ∈ invisibleRuns → a ≤ n → n < a + k →
        ∃ r, r ∈ invisibleRuns ∧ n ∈ List.range' r.1 r.2 :=
      fun a k h1 h2 h3 => ⟨(a, k), h1, List.mem_range'_1.2 ⟨h2, h3⟩⟩
    have : ∃ r, r ∈ invisibleRuns ∧ n ∈ List.range' r.1 r.2 := by
      rcases h with h | h | h | h | h | h | h | h | h | h | h | h | h | h | h | h | h | h | h | h | h | h | h | h | h | h | h | h | h
      · exact key 9 5 (by decide) (by omega) (by omega)
      · exact key 32 1 (by decide) (by omega) (by omega)
      · exact key 127 1 (by decide) (by omega) (by omega)
      · exact key 160 1 (by decide) (by omega) (by omega)
      · exact key 173 1 (by decide) (by omega) (by omega)
      · exact key 847 1 (by decide) (by omega) (by omega)
      · exact key 1564 1 (by decide) (by omega) (by omega)
      · exact key 4447 2 (by decide) (by omega) (by omega)
      · exact key 4447 2 (by decide) (by omega) (by omega)
      · exact key 6068 2 (by decide) (by omega) (by omega)
      · exact key 6068 2 (by decide) (by omega) (by omega)
      · exact key 6155 4 (by decide) (by omega) (by omega)
      · exact key 7355 2 (by decide) (by omega) (by omega)
      · exact key 7355 2 (by decide) (by omega) (by omega)
      · exact key 8192 16 (by decide) (by omega) (by omega)
      · exact key 8234 6 (by decide) (by omega) (by omega)
      · exact key 8287 17 (by decide) (by omega) (by omega)
      · exact key 10240 1 (by decide) (by omega) (by omega)
      · exact key 12288 1 (by decide) (by omega) (by omega)
      · exact key 12644 1 (by decide) (by omega) (by omega)
      · exact key 65024 16 (by decide) (by omega) (by omega)
      · exact key 65279 1 (by decide) (by omega) (by omega)
      · exact key 65440 1 (by decide) (by omega) (by omega)
      · exact key 65520 9 (by decide) (by omega) (by omega)
      · exact key 65532 1 (by decide) (by omega) (by omega)
      · exact key 78844 1 (by decide) (by omega) (by omega)
      · exact key 119155 8 (by decide) (by omega) (by omega)
      · exact key 917504 128 (by decide) (by omega) (by omega)
      · exact key 917760 240 (by decide) (by omega) (by omega)
    simpa only [invisibleRuns, List.mem_cons, List.not_mem_nil, or_false] using this

theorem foldl_spec (cs : Str) : ∀ s : List Nat, Sorted s →
    Sorted (cs.foldl (fun s c => if invisible.contains c.toNat then s else oinsert c.toNat s) s) ∧
    ∀ n, n ∈ cs.foldl (fun s c => if invisible.contains c.toNat then s else oinsert c.toNat s) s ↔
      (∃ c ∈ cs, c.toNat = n ∧ n ∉ invisible) ∨ n ∈ s := by
  induction cs with
  | nil => intro s hs; simpa using hs
  | cons c cs ih =>
    intro s hs
    rw [List.foldl_cons]
    by_cases h : c.toNat ∈ invisible
    · have hc : invisible.contains c.toNat = true := List.contains_iff_mem.2 h
      simp only [hc, if_true]
      obtain ⟨h1, h2⟩ := ih s hs
      refine ⟨h1, fun n => ?_⟩
      rw [h2]
      constructor
      · rintro (⟨d, hd, h3⟩ | h3)
        · exact .inl ⟨d, List.mem_cons_of_mem _ hd, h3⟩
        · exact .inr h3
      · rintro (⟨d, hd, h3, h4⟩ | h3)
        · rcases List.mem_cons.1 hd with rfl | hd
          · exact absurd (h3 ▸ h) h4
          · exact .inl ⟨d, hd, h3, h4⟩
        · exact .inr h3
    · have hc : invisible.contains c.toNat = false := by
        cases hb : invisible.contains c.toNat
        · rfl
        · exact absurd (List.contains_iff_mem.1 hb) h
      simp only [hc, Bool.false_eq_true, if_false]
      obtain ⟨h1, h2⟩ := ih _ (sorted_oinsert hs)
      refine ⟨h1, fun n => ?_⟩
      rw [h2, mem_oinsert]
      constructor
      · rintro (⟨d, hd, h3⟩ | rfl | h3)
        · exact .inl ⟨d, List.mem_cons_of_mem _ hd, h3⟩
        · exact .inl ⟨c, List.mem_cons_self, rfl, h⟩
        · exact .inr h3
      · rintro (⟨d, hd, h3, h4⟩ | h3)
        · rcases List.mem_cons.1 hd with rfl | hd
          · exact .inr (.inl h3.symm)
          · exact .inl ⟨d, hd, h3, h4⟩
        · exact .inr (.inr h3)

theorem sorted_charSet (rs : List Match) : Sorted (charSet rs) := (foldl_spec _ [] (by simp [Sorted])).1

theorem mem_charSet (rs : List Match) (n : Nat) :
    n ∈ charSet rs ↔ ¬ Invisible n ∧ ∃ m ∈ rs, ∃ c, m.lo ≤ c ∧ c < m.hi ∧ c % 256 = n := by
  rw [charSet, (foldl_spec _ [] (by simp [Sorted])).2, ← mem_invisible]
  simp only [List.not_mem_nil, or_false, List.mem_flatMap, rangeToString, List.mem_map, List.mem_range'_1]
  constructor
  · rintro ⟨_, ⟨m, hm, c, hc, rfl⟩, rfl, h⟩
    exact ⟨h, m, hm, c, hc.1, by omega, (byteChar_toNat c).symm⟩
  · rintro ⟨h, m, hm, c, h1, h2, rfl⟩
    exact ⟨byteChar c, ⟨m, hm, c, ⟨h1, by omega⟩, rfl⟩, byteChar_toNat c, h⟩

theorem quoted_escape {n : Nat} (hn : n < 256) : Quoted n ('"' :: (escape (Char.ofNat n) ++ ['"'])) := by
  have hc : ∀ k, k < 256 → (Char.ofNat n = Char.ofNat k ↔ n = k) := fun k hk => by
    constructor
    · intro h
      have := congrArg Char.toNat h
      rwa [toNat_ofNat_small hn, toNat_ofNat_small hk] at this
    · rintro rfl; rfl
  have h1 := hc 34 (by omega)
  have h2 := hc 92 (by omega)
  unfold escape
  by_cases e1 : n = 34
  · subst e1; exact .quote
  · by_cases e2 : n = 92
    · subst e2; exact .backslash
    · rw [if_neg (fun h => e1 (h1.1 h)), if_neg (fun h => e2 (h2.1 h))]
      exact .other e1 e2

theorem text_declares (rs : List Match) : ListsChars (charSet rs) (text rs) := by
  refine ⟨(charSet rs).map fun n => '"' :: (escape (Char.ofNat n) ++ ['"']), ?_, ?_⟩
  · have : ∀ ns : List Nat, (∀ n ∈ ns, n < 256) →
        List.Forall₂ Quoted ns (ns.map fun n => '"' :: (escape (Char.ofNat n) ++ ['"'])) := by
      intro ns
      induction ns with
      | nil => intro _; exact .nil
      | cons n ns ih =>
        intro h
        exact .cons (quoted_escape (h n (by simp))) (ih fun k hk => h k (List.mem_cons_of_mem _ hk))
    refine this _ fun n hn => ?_
    obtain ⟨_, _, _, c, _, _, rfl⟩ := (mem_charSet rs n).1 hn
    exact Nat.mod_lt _ (by omega)
  · unfold text
    rw [List.flatMap_map]
    simp only [List.cons_append, List.nil_append, List.append_assoc]

theorem charSet_pairwise (rs : List Match) : (charSet rs).Pairwise (· < ·) := by
  refine (sorted_charSet rs).imp fun {a b} h => ?_
  exact of_decide_eq_true h

instance (n : Nat) : Decidable (Invisible n) := by unfold Invisible; infer_instance

theorem charSet_dot : charSet dot = (List.range 256).filter fun n => !decide (Invisible n) := by
  refine sorted_ext (sorted_charSet _) ?_ fun n => ?_
  · refine List.Pairwise.filter _ (List.pairwise_lt_range.imp fun {a b} h => decide_eq_true h)
  · rw [mem_charSet]
    simp only [List.mem_filter, List.mem_range, Bool.not_eq_true', decide_eq_false_iff_not]
    constructor
    · rintro ⟨h, m, hm, c, _, _, rfl⟩
      exact ⟨Nat.mod_lt _ (by omega), h⟩
    · rintro ⟨h, h'⟩
      exact ⟨h', ⟨11, 0x110000⟩, by simp [dot], n + 256, by simp, by simp; omega, by omega⟩

theorem text_dot : text dot = "type Characters = [".toList ++
    ((List.range 256).filter fun n => !decide (Invisible n)).flatMap
      (fun n => ['\n', '"'] ++ escape (Char.ofNat n) ++ ['"', ',']) ++ [']'] := by
  rw [← charSet_dot]; rfl

end CharsFile

namespace Spec

theorem Quoted.inj {n k : Nat} {w v s t : Str} (hn : n < 256) (hk : k < 256) (h1 : Quoted n w) (h2 : Quoted k v)
    (h : w ++ s = v ++ t) : n = k ∧ s = t := by
  have hc : ∀ a b, a < 256 → b < 256 → Char.ofNat a = Char.ofNat b → a = b := fun a b ha hb h => by
    have := congrArg Char.toNat h
    rwa [toNat_ofNat_small ha, toNat_ofNat_small hb] at this
  cases h1 <;> cases h2 <;> simp only [List.cons_append, List.nil_append, List.cons.injEq, true_and] at h
  · exact ⟨rfl, h⟩
  · exact absurd h.1 (by decide)
  · next h3 h4 => exact absurd (hc 92 k (by omega) hk h.1).symm h4
  · exact absurd h.1 (by decide)
  · exact ⟨rfl, h⟩
  · next h3 h4 => exact absurd (hc 92 k (by omega) hk h.1).symm h4
  · next h3 h4 => exact absurd (hc n 92 hn (by omega) h.1) h4
  · next h3 h4 => exact absurd (hc n 92 hn (by omega) h.1) h4
  · exact ⟨hc n k hn hk h.1, h.2⟩

theorem ListsChars.aux : ∀ {ns ks : List Nat} {ws vs : List Str} {s t : Str}, (∀ n ∈ ns, n < 256) → (∀ n ∈ ks, n < 256) →
    List.Forall₂ Quoted ns ws → List.Forall₂ Quoted ks vs →
    ws.flatMap (fun w => '\n' :: w ++ [',']) ++ ']' :: s = vs.flatMap (fun w => '\n' :: w ++ [',']) ++ ']' :: t → ns = ks
  | _, _, _, _, _, _, _, _, .nil, .nil, _ => rfl
  | _, _, _, _, _, _, _, _, .nil, .cons _ _, h => by simp at h
  | _, _, _, _, _, _, _, _, .cons _ _, .nil, h => by simp at h
  | _, _, _, _, _, _, hn, hk, .cons h1 r1, .cons h2 r2, h => by
    simp only [List.flatMap_cons, List.cons_append, List.append_assoc, List.cons.injEq, true_and] at h
    obtain ⟨rfl, h⟩ := Quoted.inj (hn _ (by simp)) (hk _ (by simp)) h1 h2 h
    simp only [List.nil_append, List.cons.injEq, true_and] at h
    rw [aux (fun n hm => hn n (List.mem_cons_of_mem _ hm)) (fun n hm => hk n (List.mem_cons_of_mem _ hm)) r1 r2 h]

theorem ListsChars.unique {ns ks : List Nat} {t : Str} (hn : ∀ n ∈ ns, n < 256) (hk : ∀ n ∈ ks, n < 256)
    (h1 : ListsChars ns t) (h2 : ListsChars ks t) : ns = ks := by
  obtain ⟨ws, h1, rfl⟩ := h1
  obtain ⟨vs, h2, h⟩ := h2
  simp only [List.append_assoc] at h
  exact ListsChars.aux hn hk h1 h2 (s := []) (t := []) (List.append_cancel_left h)

end Spec
end Verif
