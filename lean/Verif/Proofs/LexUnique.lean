import Verif.Spec.Lexer
import Verif.Proofs.LexSpec

/-! The lexing specification determines its result. -/

namespace Verif
open Spec

namespace Lex
variable {toks : List (TokenDef × Hir)}

theorem prefix_eq {α : Type} : ∀ {w v : List α} {r s : List α}, w ++ r = v ++ s → w.length = v.length →
    w = v ∧ r = s := by
  intro w v r s h hl
  exact List.append_inj h hl

theorem longest_unique {input w v : List Char} (hw : LongestMatch toks input w)
    (hv : LongestMatch toks input v) : w = v := by
  obtain ⟨_, ⟨r, hr⟩, ⟨p, hp, hpm⟩, hmax⟩ := hw
  obtain ⟨_, ⟨s, hs⟩, ⟨q, hq, hqm⟩, hmax'⟩ := hv
  have h1 : ¬ w.length < v.length := fun h => hmax v ⟨s, hs⟩ h q hq hqm
  have h2 : ¬ v.length < w.length := fun h => hmax' w ⟨r, hr⟩ h p hp hpm
  exact (prefix_eq (hr.symm.trans hs) (by omega)).1

theorem firstMatch_unique {w : List Char} {i j : Nat} (hi : FirstMatch toks w i)
    (hj : FirstMatch toks w j) : i = j := by
  obtain ⟨⟨p, hp, hpm⟩, h1⟩ := hi
  obtain ⟨⟨q, hq, hqm⟩, h2⟩ := hj
  rcases Nat.lt_trichotomy i j with h | h | h
  · exact absurd hpm (h2 i p h hp)
  · exact h
  · exact absurd hqm (h1 j q h hq)

theorem longest_viable {c : Char} {rest w : List Char} (h : LongestMatch toks (c :: rest) w) :
    Viable toks [c] := by
  obtain ⟨hne, ⟨r, hr⟩, ⟨p, hp, hm⟩, _⟩ := h
  cases w with
  | nil => exact absurd rfl hne
  | cons d w =>
    simp only [List.cons_append, List.cons.injEq] at hr
    exact ⟨w, p, hp, by rw [hr.1]; exact hm⟩

theorem longest_ne_nil {w : List Char} (h : LongestMatch toks [] w) : False := by
  obtain ⟨hne, ⟨r, hr⟩, _⟩ := h
  exact hne (by simpa using (List.append_eq_nil_iff.mp hr.symm).1)

theorem longest_not_stop {input w : List Char} (h : LongestMatch toks input w)
    (hs : ∀ v, v ≠ [] → (∃ r, input = v ++ r) → ∀ p ∈ toks, ¬ Matches p.2 v) : False := by
  obtain ⟨hne, hr, ⟨p, hp, hm⟩, _⟩ := h
  exact hs w hne hr p hp hm

theorem lexes_unique {k input out dr} (h : Lexes toks k input out dr) :
    ∀ {out' dr'}, Lexes toks k input out' dr' → out = out' ∧ dr = dr' := by
  induction h with
  | done =>
    intro out' dr' h'
    cases h' with
    | done => exact ⟨rfl, rfl⟩
    | tok h1 => exact (longest_ne_nil h1).elim
    | tokEnd h1 => exact (longest_ne_nil h1).elim
  | blank h1 h2 _ ih =>
    intro out' dr' h'
    cases h' with
    | blank _ _ h => exact ih h
    | tok h1 => exact absurd (longest_viable h1) h2
    | tokEnd h1 => exact absurd (longest_viable h1) h2
    | stop _ h4 => exact absurd ⟨h1, h2⟩ h4
  | tok h1 h2 h3 h4 _ ih =>
    intro out' dr' h'
    cases h' with
    | done => exact (longest_ne_nil h1).elim
    | blank _ h6 => exact absurd (longest_viable h1) h6
    | tok g1 g2 g3 _ g5 =>
      have := longest_unique h1 g1
      subst this
      have := firstMatch_unique h2 g2
      subst this
      have := List.append_cancel_left (h3.symm.trans g3)
      subst this
      obtain ⟨rfl, rfl⟩ := ih g5
      exact ⟨rfl, rfl⟩
    | tokEnd _ _ _ g4 => exact absurd g4 h4
    | stop g1 _ => exact (longest_not_stop h1 g1).elim
  | tokEnd h1 h2 h3 h4 =>
    intro out' dr' h'
    cases h' with
    | done => exact (longest_ne_nil h1).elim
    | blank _ h6 => exact absurd (longest_viable h1) h6
    | tok _ _ _ g4 _ => exact absurd h4 g4
    | tokEnd g1 g2 g3 _ =>
      have := longest_unique h1 g1
      subst this
      have := firstMatch_unique h2 g2
      subst this
      have := List.append_cancel_left (h3.symm.trans g3)
      subst this
      exact ⟨rfl, rfl⟩
    | stop g1 _ => exact (longest_not_stop h1 g1).elim
  | stop h1 h2 =>
    intro out' dr' h'
    cases h' with
    | blank g1 g2 _ => exact absurd ⟨g1, g2⟩ h2
    | tok g1 => exact (longest_not_stop g1 h1).elim
    | tokEnd g1 => exact (longest_not_stop g1 h1).elim
    | stop _ _ => exact ⟨rfl, rfl⟩

/-- Offsets only label the pieces. -/
theorem lexes_shift {k input out dr} (h : Lexes toks k input out dr) (n : Nat) :
    Lexes toks (k + n) input (out.map fun p => (p.1 + n, p.2)) dr := by
  induction h with
  | done => exact .done
  | @blank k c rest out dr h1 h2 _ ih =>
    exact .blank h1 h2 (by rw [show k + n + 1 = k + 1 + n by omega]; exact ih)
  | @tok k input w i rest out dr h1 h2 h3 h4 _ ih =>
    refine .tok h1 h2 h3 h4 ?_
    rw [show k + n + w.length = k + w.length + n by omega]; exact ih
  | tokEnd h1 h2 h3 h4 => exact .tokEnd h1 h2 h3 h4
  | stop h1 h2 => exact .stop h1 h2

theorem lexes_unshift {n : Nat} : ∀ {K input out dr}, Lexes toks K input out dr → ∀ k, K = k + n →
    ∃ out', Lexes toks k input out' dr ∧ out = out'.map fun p => (p.1 + n, p.2) := by
  intro K input out dr h
  induction h with
  | done => intro k _; exact ⟨[], .done, rfl⟩
  | blank h1 h2 _ ih =>
    rintro k rfl
    obtain ⟨o, h, rfl⟩ := ih (k + 1) (by omega)
    exact ⟨o, .blank h1 h2 h, rfl⟩
  | @tok _ _ w _ _ _ _ h1 h2 h3 h4 _ ih =>
    rintro k rfl
    obtain ⟨o, h, rfl⟩ := ih (k + w.length) (by omega)
    exact ⟨_, .tok h1 h2 h3 h4 h, rfl⟩
  | tokEnd h1 h2 h3 h4 => rintro k rfl; exact ⟨_, .tokEnd h1 h2 h3 h4, rfl⟩
  | stop h1 h2 => rintro k rfl; exact ⟨_, .stop h1 h2, rfl⟩

/-- Why text is dropped. -/
theorem lexes_dropped {k input out dr} (h : Lexes toks k input out dr) :
    dr = [] ∨
    (∃ c rest, dr = c :: rest ∧ (∀ v, v ≠ [] → (∃ r, dr = v ++ r) → ∀ p ∈ toks, ¬ Matches p.2 v) ∧
      ¬ (Blank c ∧ ¬ Viable toks [c])) ∨
    (∃ k' i w, out.getLast? = some (k', i, w) ∧ Viable toks (w ++ dr)) := by
  induction h with
  | done => exact .inl rfl
  | blank _ _ _ ih => exact ih
  | tok _ _ _ _ _ ih =>
    rcases ih with h | h | ⟨k', i, w, h, h'⟩
    · exact .inl h
    · exact .inr (.inl h)
    · exact .inr (.inr ⟨k', i, w, by simp [List.getLast?_cons, h], h'⟩)
  | @tokEnd _ _ w _ _ h1 h2 h3 h4 => exact .inr (.inr ⟨_, _, w, rfl, h3 ▸ h4⟩)
  | @stop _ c rest h1 h2 => exact .inr (.inl ⟨c, rest, rfl, h1, h2⟩)

/-- In `Lexes` every piece is a first and longest match of the text from its offset on. -/
theorem lexes_first {k input out dr} (h : Lexes toks k input out dr) :
    ∀ p ∈ out, FirstMatch toks p.2.2 p.2.1 ∧ ∃ pre post, input = pre ++ post ∧ p.1 = k + pre.length ∧
      LongestMatch toks post p.2.2 := by
  induction h with
  | done => simp
  | @blank k c rest out dr _ _ _ ih =>
    intro p hp
    obtain ⟨h1, pre, post, h2, h3, h4⟩ := ih p hp
    exact ⟨h1, c :: pre, post, by simp [h2], by simp [h3]; omega, h4⟩
  | @tok k input w i rest out dr h1 h2 h3 _ _ ih =>
    intro p hp
    rcases List.mem_cons.mp hp with rfl | hp
    · exact ⟨h2, [], input, rfl, rfl, h1⟩
    · obtain ⟨g1, pre, post, g2, g3, g4⟩ := ih p hp
      exact ⟨g1, w ++ pre, post, by simp [h3, g2], by simp [g3]; omega, g4⟩
  | @tokEnd k input w i rest h1 h2 h3 _ =>
    intro p hp
    simp only [List.mem_singleton] at hp
    subst hp
    exact ⟨h2, [], input, rfl, rfl, h1⟩
  | stop => simp

end Lex
end Verif
