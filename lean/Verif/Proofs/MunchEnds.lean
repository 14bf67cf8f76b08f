import Verif.Proofs.MunchUnique
import Verif.Proofs.LexBytes

/-! Blanks at the ends of a text. -/

namespace Verif
open Spec

namespace Lex
variable {T : List Char → Nat → Prop} {V : List Char → Prop}

theorem munch_shift {k input out dr} (h : Munch T V k input out dr) (n : Nat) :
    Munch T V (k + n) input (out.map fun p => (p.1 + n, p.2)) dr := by
  induction h with
  | done => exact .done
  | @blank k c rest out dr h1 h2 _ ih => exact .blank h1 h2 (by rw [Nat.add_right_comm]; exact ih)
  | @tok k input w i rest out dr h1 h3 h4 _ ih => exact .tok h1 h3 h4 (by rw [Nat.add_right_comm]; exact ih)
  | tokEnd h1 h3 h4 => exact .tokEnd h1 h3 h4
  | stop h1 h2 => exact .stop h1 h2

theorem munch_inside {k input out dr} (h : Munch T V k input out dr) : ∀ p ∈ out, p.1 + p.2.2.length ≤ k + input.length := by
  induction h with
  | done => simp
  | blank _ _ _ ih => intro p hp; have := ih p hp; simp; omega
  | @tok k input w i rest out dr h1 h3 h4 _ ih =>
    intro p hp
    subst h3
    rcases List.mem_cons.mp hp with rfl | hp
    · simp
    · have := ih p hp; simp; omega
  | @tokEnd k input w i rest h1 h3 h4 =>
    intro p hp
    subst h3
    obtain rfl := List.mem_singleton.mp hp
    simp
  | stop => simp

/-- One more character that cannot be part of a token. -/
theorem prefix_snoc {input v : List Char} {c : Char} (h : ∃ r, input ++ [c] = v ++ r) : v = input ++ [c] ∨ ∃ r, input = v ++ r := by
  obtain ⟨r, h⟩ := h
  rcases List.eq_nil_or_concat r with rfl | ⟨r, d, rfl⟩
  · left; simpa using h.symm
  · right
    rw [List.concat_eq_append, ← List.append_assoc] at h
    exact ⟨r, (List.append_inj' h rfl).1⟩

theorem longest_snoc (hT : ∀ w i, T w i → V w) {c : Char} (hc : ∀ w, ¬ V (w ++ [c])) {input w : List Char} {i : Nat}
    (h : LongestToken T input w i) : LongestToken T (input ++ [c]) w i := by
  obtain ⟨h1, ⟨r, h2⟩, h3, h4⟩ := h
  refine ⟨h1, ⟨r ++ [c], by rw [h2, List.append_assoc]⟩, h3, fun v j hv hlt ht => ?_⟩
  rcases prefix_snoc hv with rfl | hv
  · exact hc _ (hT _ _ ht)
  · exact h4 v j hv hlt ht

theorem munch_snoc (hT : ∀ w i, T w i → V w) {c : Char} (hb : Blank c) (hc : ∀ w, ¬ V (w ++ [c]))
    (hall : ∀ k s, ∃ out dr, Munch T V k s out dr) {k input out dr} (h : Munch T V k input out dr) :
    ∃ extra dr', Munch T V k (input ++ [c]) (out ++ extra) dr' ∧ (dr = [] → extra = [] ∧ dr' = []) := by
  have one : ∀ k, Munch T V k ([] ++ [c]) [] [] := fun k => .blank hb (hc []) .done
  induction h with
  | @done k => exact ⟨[], [], one k, fun _ => ⟨rfl, rfl⟩⟩
  | blank h1 h2 _ ih =>
    obtain ⟨e, d, h3, h4⟩ := ih
    exact ⟨e, d, .blank h1 h2 h3, h4⟩
  | tok h1 h3 h4 _ ih =>
    obtain ⟨e, d, h5, h6⟩ := ih
    exact ⟨e, d, .tok (longest_snoc hT hc h1) (by rw [h3, List.append_assoc]) (hc _) h5, h6⟩
  | @tokEnd k input w i rest h1 h3 h4 =>
    have key : ∀ {e d}, Munch T V (k + w.length) (rest ++ [c]) e d → Munch T V k (input ++ [c]) ((k, i, w) :: e) d := fun h =>
      .tok (longest_snoc hT hc h1) (by rw [h3, List.append_assoc]) (hc _) h
    by_cases hr : rest = []
    · subst hr
      exact ⟨[], [], key (one _), fun _ => ⟨rfl, rfl⟩⟩
    · obtain ⟨e, d, h5⟩ := hall (k + w.length) (rest ++ [c])
      exact ⟨e, d, key h5, fun h => absurd h hr⟩
  | @stop k d rest h1 h2 =>
    refine ⟨[], d :: rest ++ [c], .stop (fun v i hv hp ht => ?_) h2, fun h => by simp at h⟩
    rcases prefix_snoc (input := d :: rest) hp with rfl | hp
    · exact hc _ (hT _ _ ht)
    · exact h1 v i hv hp ht

theorem munch_snoc_rest (hT : ∀ w i, T w i → V w) {c : Char} (hc : ∀ w, ¬ V (w ++ [c])) {k input out dr} (h : Munch T V k input out dr) :
    dr.length ≤ input.length ∧ ∀ {e d}, Munch T V (k + (input.length - dr.length)) (dr ++ [c]) e d → Munch T V k (input ++ [c]) (out ++ e) d := by
  induction h with
  | done => exact ⟨Nat.le_refl _, fun h => h⟩
  | @blank k c' rest out dr h1 h2 _ ih =>
    obtain ⟨hl, ih⟩ := ih
    refine ⟨by simp; omega, fun h => .blank h1 h2 (ih ?_)⟩
    rw [List.length_cons] at h
    rw [show k + 1 + (rest.length - dr.length) = k + (rest.length + 1 - dr.length) by omega]
    exact h
  | @tok k input w i rest out dr h1 h3 h4 _ ih =>
    obtain ⟨hl, ih⟩ := ih
    have hlen : input.length = w.length + rest.length := by rw [h3, List.length_append]
    refine ⟨by omega, fun h => .tok (longest_snoc hT hc h1) (by rw [h3, List.append_assoc]) (hc _) (ih ?_)⟩
    rw [show k + w.length + (rest.length - dr.length) = k + (input.length - dr.length) by omega]
    exact h
  | @tokEnd k input w i rest h1 h3 h4 =>
    have hlen : input.length = w.length + rest.length := by rw [h3, List.length_append]
    refine ⟨by omega, fun h => .tok (longest_snoc hT hc h1) (by rw [h3, List.append_assoc]) (hc _) ?_⟩
    rw [show k + (input.length - rest.length) = k + w.length by omega] at h
    exact h
  | @stop k d rest h1 h2 => exact ⟨Nat.le_refl _, fun h => by simpa using h⟩

theorem bytesAt_cons {c : Char} (hc : bytes [c] = 1) {input : List Char} {k n : Nat} {v : List Char} :
    BytesAt (c :: input) (k + 1) n v ↔ BytesAt input k n v := by
  have hcons : ∀ a, bytes (c :: a) = bytes a + 1 := fun a => by
    rw [show c :: a = [c] ++ a from rfl, bytes_append, hc]; omega
  constructor
  · rintro ⟨a, b, h1, h2, h3⟩
    cases a with
    | nil => simp [bytes] at h2
    | cons d a =>
      simp only [List.cons_append, List.cons.injEq] at h1
      obtain ⟨rfl, h1⟩ := h1
      exact ⟨a, b, h1, by rw [hcons] at h2; omega, h3⟩
  · rintro ⟨a, b, rfl, h2, h3⟩
    exact ⟨c :: a, b, rfl, by rw [hcons]; omega, h3⟩

theorem length_le_bytes (a : List Char) : a.length ≤ bytes a := by
  induction a with
  | nil => simp
  | cons c a ih => rw [bytes_cons]; have := c.utf8Size_pos; simp; omega

theorem bytesAt_append {input : List Char} (r : List Char) {k n : Nat} (h : k + n ≤ input.length) {v : List Char} :
    BytesAt (input ++ r) k n v ↔ BytesAt input k n v := by
  constructor
  · rintro ⟨a, b, h1, h2, h3⟩
    have hlen : (a ++ v).length ≤ input.length := by
      have h4 := length_le_bytes (a ++ v)
      rw [bytes_append] at h4; omega
    obtain ⟨b', hb'⟩ := List.prefix_of_prefix_length_le (l₁ := a ++ v) (l₂ := input) (l₃ := input ++ r) ⟨b, h1.symm⟩ ⟨r, rfl⟩ hlen
    exact ⟨a, b', hb'.symm, h2, h3⟩
  · rintro ⟨a, b, rfl, h2, h3⟩
    exact ⟨a, b ++ r, by simp, h2, h3⟩

end Lex
end Verif
