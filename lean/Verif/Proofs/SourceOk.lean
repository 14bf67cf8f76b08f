import Verif.Model.GrammarFile
import Verif.Spec.Source

/-! # The terminals of grammar files -/

namespace Verif.Spec
open Verif

theorem matches_lit {k : Nat} {w : List Char} : Matches (.lit k) w ↔ ∃ c : Char, c.toNat = k ∧ w = [c] := by
  constructor
  · rintro ⟨⟩; exact ⟨_, ‹_›, rfl⟩
  · rintro ⟨c, h, rfl⟩; exact .lit h

theorem matches_cls {rs : List (Nat × Nat)} {w : List Char} :
    Matches (.cls rs) w ↔ ∃ c : Char, w = [c] ∧ ∃ r ∈ rs, r.1 ≤ c.toNat ∧ c.toNat ≤ r.2 := by
  constructor
  · rintro ⟨⟩; exact ⟨_, rfl, _, ‹_›, ‹_›, ‹_›⟩
  · rintro ⟨c, rfl, r, h1, h2, h3⟩; exact .cls h1 h2 h3

theorem matches_concat_cons {h : Hir} {hs : List Hir} {w : List Char} :
    Matches (.concat (h :: hs)) w ↔ ∃ a b, w = a ++ b ∧ Matches h a ∧ Matches (.concat hs) b := by
  constructor
  · rintro ⟨⟩; exact ⟨_, _, rfl, ‹_›, ‹_›⟩
  · rintro ⟨a, b, rfl, h1, h2⟩; exact .concatCons h1 h2

theorem matches_concat_nil {w : List Char} : Matches (.concat []) w ↔ w = [] := by
  constructor
  · rintro ⟨⟩; rfl
  · rintro rfl; exact .concatNil

theorem matches_alt {hs : List Hir} {w : List Char} : Matches (.alt hs) w ↔ ∃ h ∈ hs, Matches h w := by
  constructor
  · rintro ⟨⟩; exact ⟨_, ‹_›, ‹_›⟩
  · rintro ⟨h, h1, h2⟩; exact .alt h1 h2

theorem matches_group {h : Hir} {w : List Char} : Matches (.group h) w ↔ Matches h w := by
  constructor
  · rintro ⟨⟩; assumption
  · exact .group

theorem char_toNat_eq {c d : Char} : c.toNat = d.toNat ↔ c = d :=
  ⟨fun h => by
    have := congrArg Char.ofNat h
    simpa using this, fun h => h ▸ rfl⟩

theorem char_le (c : Char) : c.toNat ≤ 0x10FFFF := by
  have h := c.valid
  have : c.val.toNat = c.toNat := rfl
  unfold UInt32.isValidChar Nat.isValidChar at h
  omega

/-- One item of a quoted text. -/
theorem quotedItem_iff {w : List Char} : Matches (.group GrammarFile.quotedItem) w ↔
    w = ['\\', '\\'] ∨ w = ['\\', '"'] ∨ ∃ c, w = [c] ∧ c ≠ '\\' ∧ c ≠ '"' := by
  have e1 : ∀ c : Char, c.toNat = 92 ↔ c = '\\' := fun c => char_toNat_eq (d := '\\')
  have e2 : ∀ c : Char, c.toNat = 34 ↔ c = '"' := fun c => char_toNat_eq (d := '"')
  rw [matches_group]
  unfold GrammarFile.quotedItem
  simp only [matches_alt, List.mem_cons, List.not_mem_nil, or_false, exists_eq_or_imp, exists_eq_left,
    matches_concat_cons, matches_concat_nil, matches_lit, matches_cls]
  constructor
  · rintro (⟨a, b, rfl, ⟨c, hc, rfl⟩, x, y, rfl, ⟨d, hd, rfl⟩, rfl⟩ |
      ⟨a, b, rfl, ⟨c, hc, rfl⟩, x, y, rfl, ⟨d, hd, rfl⟩, rfl⟩ | ⟨c, rfl, h⟩)
    · rw [e1] at hc hd; subst hc hd; simp
    · rw [e1] at hc; rw [e2] at hd; subst hc hd; simp
    · refine .inr (.inr ⟨c, rfl, fun h' => ?_, fun h' => ?_⟩)
      · have := (e1 c).mpr h'; omega
      · have := (e2 c).mpr h'; omega
  · rintro (rfl | rfl | ⟨c, rfl, h1, h2⟩)
    · exact .inl ⟨['\\'], ['\\'], rfl, ⟨'\\', rfl, rfl⟩, ['\\'], [], rfl, ⟨'\\', rfl, rfl⟩, rfl⟩
    · exact .inr (.inl ⟨['\\'], ['"'], rfl, ⟨'\\', rfl, rfl⟩, ['"'], [], rfl, ⟨'"', rfl, rfl⟩, rfl⟩)
    · refine .inr (.inr ⟨c, rfl, ?_⟩)
      have := char_le c
      have h3 : c.toNat ≠ 92 := fun h => h1 ((e1 c).mp h)
      have h4 : c.toNat ≠ 34 := fun h => h2 ((e2 c).mp h)
      omega

theorem star_quotable {h : Hir} {w : List Char} (hm : Matches h w)
    (hh : h = .rep .zeroOrMore (.group GrammarFile.quotedItem)) : Quotable w := by
  induction hm with
  | starNil => exact .nil
  | @starCons h' w₁ w₂ h1 h2 _ ih =>
    cases hh
    have := ih rfl
    rcases quotedItem_iff.mp h1 with rfl | rfl | ⟨c, rfl, h3, h4⟩
    · exact .backslash this
    · exact .quote this
    · exact .char h3 h4 this
  | _ => cases hh

theorem quotable_star {t : List Char} (h : Quotable t) :
    Matches (.rep .zeroOrMore (.group GrammarFile.quotedItem)) t := by
  induction h with
  | nil => exact .starNil
  | backslash _ ih => exact .starCons (quotedItem_iff.mpr (.inl rfl)) ih
  | quote _ ih => exact .starCons (quotedItem_iff.mpr (.inr (.inl rfl))) ih
  | @char c t h1 h2 _ ih => exact .starCons (w₁ := [c]) (quotedItem_iff.mpr (.inr (.inr ⟨c, rfl, h1, h2⟩))) ih

theorem quoted_iff {w : List Char} : Matches GrammarFile.quoted w ↔ ∃ t, Quotable t ∧ w = '"' :: (t ++ ['"']) := by
  have e2 : ∀ c : Char, c.toNat = 34 ↔ c = '"' := fun c => char_toNat_eq (d := '"')
  unfold GrammarFile.quoted
  simp only [matches_concat_cons, matches_concat_nil, matches_lit]
  constructor
  · rintro ⟨a, b, rfl, ⟨c, hc, rfl⟩, x, y, rfl, hx, z, z', rfl, ⟨d, hd, rfl⟩, rfl⟩
    rw [e2] at hc hd
    subst hc hd
    exact ⟨x, star_quotable hx rfl, by simp⟩
  · rintro ⟨t, ht, rfl⟩
    exact ⟨['"'], _, rfl, ⟨'"', rfl, rfl⟩, t, ['"'], rfl, quotable_star ht, ['"'], [], rfl, ⟨'"', rfl, rfl⟩, rfl⟩

theorem star_line {h : Hir} {w : List Char} (hm : Matches h w)
    (hh : h = .rep .zeroOrMore (.cls [(0, 9), (11, 0x10FFFF)])) : '\n' ∉ w := by
  induction hm with
  | starNil => simp
  | @starCons h' w₁ w₂ h1 h2 _ ih =>
    cases hh
    have := ih rfl
    obtain ⟨c, rfl, h3⟩ := matches_cls.mp h1
    have : c ≠ '\n' := by
      rintro rfl
      simp at h3
    simp_all
    exact fun h => this h.symm
  | _ => cases hh

theorem line_star : ∀ {t : List Char}, '\n' ∉ t → Matches (.rep .zeroOrMore (.cls [(0, 9), (11, 0x10FFFF)])) t
  | [], _ => .starNil
  | c :: t, h => by
    refine .starCons (w₁ := [c]) (matches_cls.mpr ⟨c, rfl, ?_⟩) (line_star (t := t) (by simp_all))
    have h1 : c.toNat ≠ 10 := fun h' => by
      have := (char_toNat_eq (d := '\n')).mp h'
      subst this; simp at h
    have := char_le c
    simp
    omega

theorem tsCode_iff {w : List Char} : Matches GrammarFile.tsCode w ↔ ∃ t, '\n' ∉ t ∧ w = '(' :: (t ++ [')']) := by
  have e1 : ∀ c : Char, c.toNat = 40 ↔ c = '(' := fun c => char_toNat_eq (d := '(')
  have e2 : ∀ c : Char, c.toNat = 41 ↔ c = ')' := fun c => char_toNat_eq (d := ')')
  unfold GrammarFile.tsCode
  simp only [matches_concat_cons, matches_concat_nil, matches_lit]
  constructor
  · rintro ⟨a, b, rfl, ⟨c, hc, rfl⟩, x, y, rfl, hx, z, z', rfl, ⟨d, hd, rfl⟩, rfl⟩
    rw [e1] at hc
    rw [e2] at hd
    subst hc hd
    exact ⟨x, star_line hx rfl, by simp⟩
  · rintro ⟨t, ht, rfl⟩
    exact ⟨['('], _, rfl, ⟨'(', rfl, rfl⟩, t, [')'], rfl, line_star ht, [')'], [], rfl, ⟨')', rfl, rfl⟩, rfl⟩

end Verif.Spec
