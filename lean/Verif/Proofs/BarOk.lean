import Verif.Proofs.ApartOk

/-! A character that no token contains splits a text (C98). -/

namespace Verif.Lex
open Spec

variable {T : List Char → Nat → Prop} {V : List Char → Prop}

theorem munchErr_shift {k input out er} (h : MunchErr T V k input out er) (n : Nat) :
    MunchErr T V (k + n) input (out.map fun p => (p.1 + n, p.2)) (er.map fun p => (p.1 + n, p.2)) := by
  induction h with
  | done => exact .done
  | @blank k c rest out er h1 h2 _ ih => exact .blank h1 h2 (by rw [Nat.add_right_comm]; exact ih)
  | @tok k input w i rest out er h1 h3 h4 _ ih => exact .tok h1 h3 h4 (by rw [Nat.add_right_comm]; exact ih)
  | tokEnd h1 h3 h4 => exact .tokEnd h1 h3 h4
  | cut h1 h2 h3 => exact .cut h1 h2 h3
  | @bad k input j c h1 h2 h3 h4 h5 =>
    simp only [List.map_nil, Option.map_some]
    rw [Nat.add_right_comm]
    exact .bad h1 h2 h3 h4 h5

/-- A prefix without the character is a prefix of what is before it. -/
theorem prefix_bar {s t v : List Char} {c : Char} (hv : ∀ w u, v ≠ w ++ c :: u) (h : ∃ r, s ++ c :: t = v ++ r) : ∃ r, s = v ++ r := by
  obtain ⟨r, h⟩ := h
  rcases List.append_eq_append_iff.mp h with ⟨a, rfl, h2⟩ | ⟨a, rfl, _⟩
  · cases a with
    | nil => exact ⟨[], by simp⟩
    | cons d a =>
      simp only [List.cons_append, List.cons.injEq] at h2
      obtain ⟨rfl, _⟩ := h2
      exact absurd rfl (hv s a)
  · exact ⟨a, rfl⟩

section
variable (hT : ∀ w i, T w i → V w) {c : Char} (hc : ∀ w u, ¬ V (w ++ c :: u))
include hT hc

theorem token_bar {s t v : List Char} {i : Nat} (h : ∃ r, s ++ c :: t = v ++ r) (ht : T v i) : ∃ r, s = v ++ r :=
  prefix_bar (fun w u e => hc w u (e ▸ hT _ _ ht)) h

theorem longest_bar {s t t' w : List Char} {i : Nat} (h : LongestToken T (s ++ c :: t) w i) : LongestToken T (s ++ c :: t') w i := by
  obtain ⟨h1, h2, h3, h4⟩ := h
  obtain ⟨r, rfl⟩ := token_bar hT hc h2 h3
  refine ⟨h1, ⟨r ++ c :: t', by simp⟩, h3, fun v j hv hlt ht => ?_⟩
  obtain ⟨r', hr⟩ := token_bar hT hc hv ht
  exact h4 v j ⟨r' ++ c :: t, by rw [hr]; simp⟩ hlt ht

theorem munch_bar {k input out dr} (h : Munch T V k input out dr) : ∀ {s t}, input = s ++ [c] →
    (dr = [] → ∀ {out2 dr2}, Munch T V (k + s.length + 1) t out2 dr2 → Munch T V k (s ++ c :: t) (out ++ out2) dr2) ∧
    (dr ≠ [] → Munch T V k (s ++ c :: t) out (dr ++ t)) := by
  induction h with
  | done => intro s t e; simp at e
  | @blank k d rest out dr h1 h2 h3 ih =>
    intro s t e
    cases s with
    | nil =>
      simp only [List.nil_append, List.cons.injEq] at e
      obtain ⟨rfl, rfl⟩ := e
      cases h3 with
      | done => exact ⟨fun _ out2 dr2 h => .blank h1 h2 (by simpa using h), fun h => absurd rfl h⟩
      | tok h4 h5 _ _ => have := h4.1; simp at h5; exact absurd h5.1 this
      | tokEnd h4 h5 _ => have := h4.1; simp at h5; exact absurd h5.1 this
    | cons d' s =>
      simp only [List.cons_append, List.cons.injEq] at e
      obtain ⟨rfl, rfl⟩ := e
      obtain ⟨i1, i2⟩ := ih (s := s) (t := t) rfl
      exact ⟨fun h out2 dr2 h3 => .blank h1 h2 (i1 h (by simpa [Nat.add_right_comm, Nat.add_assoc] using h3)), fun h => .blank h1 h2 (i2 h)⟩
  | @tok k input w i rest out dr h1 h3 h4 _ ih =>
    intro s t e
    subst e
    obtain ⟨r, rfl⟩ := token_bar hT hc ⟨_, h3⟩ h1.2.2.1
    have hr : rest = r ++ [c] := by simpa using h3.symm
    obtain ⟨i1, i2⟩ := ih (s := r) (t := t) hr
    refine ⟨fun h out2 dr2 hm => ?_, fun h => ?_⟩
    · exact .tok (longest_bar hT hc h1) (by simp) (hc _ _) (i1 h (by
        rw [List.length_append] at hm; rw [show k + w.length + r.length + 1 = k + (w.length + r.length) + 1 by omega]; exact hm))
    · exact .tok (longest_bar hT hc h1) (by simp) (hc _ _) (i2 h)
  | tokEnd _ _ h4 => intro s t e; subst e; exact absurd h4 (hc _ _)
  | @stop k d rest h1 h2 =>
    intro s t e
    refine ⟨fun h => by simp at h, fun _ => ?_⟩
    rw [e]
    cases s with
    | nil =>
      simp only [List.nil_append, List.cons.injEq] at e
      obtain ⟨rfl, rfl⟩ := e
      exact .stop (fun v i hv hp ht => h1 v i hv (by obtain ⟨r, hr⟩ := token_bar (s := []) hT hc hp ht; exact ⟨r ++ [d], by rw [← List.append_assoc, ← hr]; rfl⟩) ht) h2
    | cons d' s =>
      simp only [List.cons_append, List.cons.injEq] at e
      obtain ⟨rfl, rfl⟩ := e
      have : d :: s ++ [c] ++ t = d :: (s ++ c :: t) := by simp
      rw [this]
      exact .stop (fun v i hv hp ht => h1 v i hv (by
        obtain ⟨r, hr⟩ := token_bar (s := d :: s) hT hc hp ht
        exact ⟨r ++ [c], by rw [← List.append_assoc, ← hr]; rfl⟩) ht) h2

theorem munchErr_bar {k input out er} (h : MunchErr T V k input out er) : ∀ {s t}, input = s ++ [c] →
    (er = none → ∀ {out2 er2}, MunchErr T V (k + s.length + 1) t out2 er2 → MunchErr T V k (s ++ c :: t) (out ++ out2) er2) ∧
    (er ≠ none → MunchErr T V k (s ++ c :: t) out er) := by
  induction h with
  | done => intro s t e; simp at e
  | @blank k d rest out er h1 h2 h3 ih =>
    intro s t e
    cases s with
    | nil =>
      simp only [List.nil_append, List.cons.injEq] at e
      obtain ⟨rfl, rfl⟩ := e
      cases h3 with
      | done => exact ⟨fun _ out2 dr2 h => .blank h1 h2 (by simpa using h), fun h => absurd rfl h⟩
      | tok h4 h5 _ _ => have := h4.1; simp at h5; exact absurd h5.1 this
      | tokEnd h4 h5 _ => have := h4.1; simp at h5; exact absurd h5.1 this
      | cut h4 => exact absurd rfl h4
      | bad _ h4 => simp at h4
    | cons d' s =>
      simp only [List.cons_append, List.cons.injEq] at e
      obtain ⟨rfl, rfl⟩ := e
      obtain ⟨i1, i2⟩ := ih (s := s) (t := t) rfl
      exact ⟨fun h out2 dr2 h3 => .blank h1 h2 (i1 h (by simpa [Nat.add_right_comm, Nat.add_assoc] using h3)), fun h => .blank h1 h2 (i2 h)⟩
  | @tok k input w i rest out dr h1 h3 h4 _ ih =>
    intro s t e
    subst e
    obtain ⟨r, rfl⟩ := token_bar hT hc ⟨_, h3⟩ h1.2.2.1
    have hr : rest = r ++ [c] := by simpa using h3.symm
    obtain ⟨i1, i2⟩ := ih (s := r) (t := t) hr
    refine ⟨fun h out2 dr2 hm => ?_, fun h => ?_⟩
    · exact .tok (longest_bar hT hc h1) (by simp) (hc _ _) (i1 h (by
        rw [List.length_append] at hm; rw [show k + w.length + r.length + 1 = k + (w.length + r.length) + 1 by omega]; exact hm))
    · exact .tok (longest_bar hT hc h1) (by simp) (hc _ _) (i2 h)
  | tokEnd _ _ h4 => intro s t e; subst e; exact absurd h4 (hc _ _)
  | cut _ _ h4 => intro s t e; subst e; exact absurd h4 (hc _ _)
  | @bad k input j d h1 h2 h3 h4 h5 =>
    intro s t e
    subst e
    refine ⟨fun h => by simp at h, fun _ => ?_⟩
    have hj : j < (s ++ [c]).length := (List.getElem?_eq_some_iff.mp h2).1
    have e : s ++ c :: t = (s ++ [c]) ++ t := by simp
    refine .bad (fun v i hv hp ht => h1 v i hv (by obtain ⟨r, hr⟩ := token_bar hT hc hp ht; exact ⟨r ++ [c], by rw [← List.append_assoc, ← hr]⟩) ht)
      (by rw [e, List.getElem?_append_left hj]; exact h2) (fun j' h6 h7 => ?_) ?_ h5
    · rw [e, List.take_append_of_le_length (by omega)]; exact h3 j' h6 h7
    · rw [e, List.take_append_of_le_length (by omega)]; exact h4

end

end Verif.Lex
