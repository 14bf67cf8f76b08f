import Verif.Model.Support
import Verif.Proofs.SourceOk
import Verif.Proofs.TokensOk

/-! # Property C42: text in grammar files -/

namespace Verif.Props
open Verif Spec

theorem strip_delims {α : Type} (a b : α) (t : List α) :
    ((a :: (t ++ [b])).drop 1).take ((a :: (t ++ [b])).length - 2) = t := by
  simp

/-- C42.  The text stored for a quoted literal is the source text between the quotes,
and these are exactly the texts in which each backslash stands before a backslash or
a quote and each quote after such a backslash. -/
theorem C42_literal (w : Str) (h : Matches GrammarFile.quoted w) :
    ∃ t, Quotable t ∧ w = '"' :: (t ++ ['"']) ∧ Support.allocQuotedStr w = .ok t := by
  obtain ⟨t, ht, rfl⟩ := quoted_iff.mp h
  refine ⟨t, ht, rfl, ?_⟩
  unfold Support.allocQuotedStr
  rw [if_neg (by simp), strip_delims]

/-- C42.  Every such text can be written. -/
theorem C42_literal_all {t : Str} (h : Quotable t) : Matches GrammarFile.quoted ('"' :: (t ++ ['"'])) :=
  quoted_iff.mpr ⟨t, h, rfl⟩

/-- C42.  The same for a regex. -/
theorem C42_regex (w : Str) (h : Matches GrammarFile.quoted w) :
    ∃ t, Quotable t ∧ w = '"' :: (t ++ ['"']) ∧ Support.allocRegex w = .ok t := by
  obtain ⟨t, ht, rfl⟩ := quoted_iff.mp h
  refine ⟨t, ht, rfl, ?_⟩
  unfold Support.allocRegex
  cases t with
  | nil => rw [if_pos (by decide)]
  | cons c t =>
    have h1 : 1 ≤ ('"').utf8Size := Char.utf8Size_pos _
    have h2 : 1 ≤ c.utf8Size := Char.utf8Size_pos _
    rw [if_neg (by simp; omega), if_neg (by simp), strip_delims]

/-- C42.  The text stored for a code block is the source text between the outer
parentheses; it never contains a line break. -/
theorem C42_code (w : Str) (h : Matches GrammarFile.tsCode w) :
    ∃ t, '\n' ∉ t ∧ w = '(' :: (t ++ [')']) ∧ Support.allocTsCode w = .ok t := by
  obtain ⟨t, ht, rfl⟩ := tsCode_iff.mp h
  refine ⟨t, ht, rfl, ?_⟩
  unfold Support.allocTsCode
  rw [if_neg (by simp), strip_delims]

/-- C42.  On any text, quoted or not, the three functions leave out the first and the last character; a text of less than two characters
makes the subtraction underflow, but for a regex shorter than three bytes. -/
theorem C42_any (s : Str) :
    (∀ a t b, s = a :: (t ++ [b]) → Support.allocQuotedStr s = .ok t ∧ Support.allocTsCode s = .ok t ∧ Support.allocRegex s = .ok t) ∧
    (s.length < 2 → Support.allocQuotedStr s = .error .underflow ∧ Support.allocTsCode s = .error .underflow) ∧
    (s = [] → Support.allocRegex s = .ok []) ∧
    ∀ c, s = [c] → Support.allocRegex s = if c.utf8Size < 3 then .ok [] else .error .underflow := by
  refine ⟨?_, fun h => ?_, ?_, ?_⟩
  · rintro a t b rfl
    have hs : ((a :: (t ++ [b])).drop 1).take ((a :: (t ++ [b])).length - 2) = t := by simp
    unfold Support.allocQuotedStr Support.allocTsCode Support.allocRegex
    rw [if_neg (by simp), hs]
    refine ⟨rfl, rfl, ?_⟩
    split
    · rename_i hlt
      cases t with
      | nil => rfl
      | cons c t =>
        have h1 := Char.utf8Size_pos a
        have h2 := Char.utf8Size_pos b
        have h3 := Char.utf8Size_pos c
        simp only [List.map_cons, List.map_append, List.map_nil, List.sum_cons, List.sum_append, List.sum_nil, List.cons_append] at hlt
        omega
    · rfl
  · unfold Support.allocQuotedStr Support.allocTsCode
    rw [if_pos h]
    exact ⟨rfl, rfl⟩
  · rintro rfl; rfl
  · rintro c rfl
    unfold Support.allocRegex
    simp

/-- C42.  The token of a literal matches exactly the text between the quotes, for
every literal, every token number and every regex parser. -/
theorem C42_token (rx : Str → Option Hir) (idx : Nat) {t : Str} (h : Matches GrammarFile.quoted ('"' :: (t ++ ['"']))) :
    ∃ s d hir, Support.allocQuotedStr ('"' :: (t ++ ['"'])) = .ok s ∧
      Grammar.tokenDefWithRegex rx idx (.strLit s) = .ok (some (d, hir)) ∧
      (∀ v, Matches hir v ↔ v = t) ∧ d.name = t := by
  obtain ⟨t', _, h1, h2⟩ := C42_literal _ h
  have : t' = t := by simpa using h1.symm
  subst this
  exact ⟨t', _, _, h2, rfl, fun v => Grammar.litHir_matches t' v, rfl⟩

theorem quotable_split {t : Str} (h : Quotable t) : ∀ a b, t = a ++ '"' :: b → ∃ a', a = a' ++ ['\\'] := by
  induction h with
  | nil => intro a b h; simp at h
  | backslash _ ih =>
    rintro (_ | ⟨x, _ | ⟨y, a⟩⟩) b h
    · simp at h
    · simp at h
    · simp only [List.cons_append, List.cons.injEq] at h
      obtain ⟨rfl, rfl, h⟩ := h
      obtain ⟨a', rfl⟩ := ih a b h
      exact ⟨_ :: _ :: a', rfl⟩
  | quote _ ih =>
    rintro (_ | ⟨x, _ | ⟨y, a⟩⟩) b h
    · simp at h
    · simp only [List.cons_append, List.cons.injEq] at h
      exact ⟨[], by simp [← h.1]⟩
    · simp only [List.cons_append, List.cons.injEq] at h
      obtain ⟨rfl, rfl, h⟩ := h
      obtain ⟨a', rfl⟩ := ih a b h
      exact ⟨_ :: _ :: a', rfl⟩
  | char h1 h2 _ ih =>
    rintro (_ | ⟨x, a⟩) b h
    · simp only [List.nil_append, List.cons.injEq] at h
      exact absurd h.1 h2
    · simp only [List.cons_append, List.cons.injEq] at h
      obtain ⟨rfl, h⟩ := h
      obtain ⟨a', rfl⟩ := ih a b h
      exact ⟨_ :: a', rfl⟩

/-- C42.  Since nothing is decoded, no literal of a grammar file matches text with a
quote that does not follow a backslash: a token `"` cannot be written. -/
theorem C42_no_quote {w t a b : Str} (h : Matches GrammarFile.quoted w) (ht : Support.allocQuotedStr w = .ok t)
    (hq : t = a ++ '"' :: b) : ∃ a', a = a' ++ ['\\'] := by
  obtain ⟨t', h1, -, h2⟩ := C42_literal w h
  rw [ht] at h2
  cases h2
  exact quotable_split h1 a b hq

theorem quotable_append {a b : Str} (ha : Quotable a) : Quotable (a ++ b) → Quotable b := by
  induction ha with
  | nil => exact id
  | backslash _ ih =>
    intro h
    cases h with
    | backslash h => exact ih h
    | char h => exact absurd rfl h
  | quote _ ih =>
    intro h
    cases h with
    | quote h => exact ih h
    | char h => exact absurd rfl h
  | @char c t h1 h2 _ ih =>
    intro h
    simp only [List.cons_append] at h
    generalize t ++ b = x at h ih
    cases h with
    | backslash h => exact absurd rfl h1
    | quote h => exact absurd rfl h1
    | char _ _ h => exact ih h

/-- C42.  A regex of a grammar file has no escape but of a backslash or a quote, so
that `\.`, `\+` or `\d` cannot be written. -/
theorem C42_no_escape {w t a b : Str} {c : Char} (h : Matches GrammarFile.quoted w)
    (ht : Support.allocRegex w = .ok t) (ha : Quotable a) (hq : t = a ++ '\\' :: c :: b) : c = '\\' ∨ c = '"' := by
  obtain ⟨t', h1, -, h2⟩ := C42_regex w h
  rw [ht] at h2
  cases h2
  rw [hq] at h1
  cases quotable_append ha h1 with
  | backslash => exact .inl rfl
  | quote => exact .inr rfl
  | char h => exact absurd rfl h

-- C42: a literal with an escaped quote, an empty one, a regex, a code block with
-- inner parentheses.
example : Matches GrammarFile.quoted "\"a\\\"\\\\b\"".toList ∧
    Support.allocQuotedStr "\"a\\\"\\\\b\"".toList = .ok "a\\\"\\\\b".toList :=
  ⟨quoted_iff.mpr ⟨"a\\\"\\\\b".toList, .char (by decide) (by decide) (.quote (.backslash
    (.char (by decide) (by decide) .nil))), rfl⟩, rfl⟩

example : Matches GrammarFile.quoted "\"\"".toList ∧ Support.allocRegex "\"\"".toList = .ok [] ∧
    Support.allocRegex "\"é\"".toList = .ok ['é'] :=
  ⟨quoted_iff.mpr ⟨[], .nil, rfl⟩, rfl, rfl⟩

example : Support.allocRegex "éa".toList = .ok [] ∧ Support.allocRegex "é".toList = .ok [] ∧ Support.allocRegex "€".toList = .error .underflow :=
  ⟨rfl, rfl, rfl⟩

example : Matches GrammarFile.tsCode "({ left: (a), right: b })".toList ∧
    Support.allocTsCode "({ left: (a), right: b })".toList = .ok "{ left: (a), right: b }".toList :=
  ⟨tsCode_iff.mpr ⟨"{ left: (a), right: b }".toList, by decide, rfl⟩, rfl⟩

-- C42: the token written `"\""` matches a backslash and a quote, and not a quote.
example : ∃ d hir, Grammar.tokenDefWithRegex (fun _ => none) 3 (.strLit "\\\"".toList) = .ok (some (d, hir)) ∧
    Support.allocQuotedStr "\"\\\"\"".toList = .ok "\\\"".toList ∧ ¬ Matches hir ['"'] ∧ Matches hir ['\\', '"'] :=
  ⟨_, _, rfl, rfl, fun h => absurd ((Grammar.litHir_matches _ _).mp h) (by decide),
    (Grammar.litHir_matches _ _).mpr rfl⟩

-- C42: `\.` is no text of a regex.
example : ¬ ∃ w, Matches GrammarFile.quoted w ∧ Support.allocRegex w = .ok "a\\.".toList := by
  rintro ⟨w, h1, h2⟩
  have := C42_no_escape h1 h2 (a := ['a']) (c := '.') (b := []) (.char (by decide) (by decide) .nil) rfl
  revert this
  decide

end Verif.Props
