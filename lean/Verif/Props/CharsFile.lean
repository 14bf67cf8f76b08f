import Verif.Proofs.CharsFileOk
import Verif.Tests.RepoChars

/-! # Properties: printed ranges (C85) and chars.ts (C86) -/

namespace Verif.Props
open Verif Verif.Spec

/-! ## C85: what is printed for a range of a lexer -/

/-- **C85, exactly.**  The text has one character for each of the first 256 numbers of the range, namely the one whose number
is the remainder by 256, and a remark if there are more. -/
theorem C85_exact (m : Match) : ∃ cs : Str, cs.length = min 256 (m.hi - m.lo) ∧
    (∀ i c, cs[i]? = some c → c.toNat = (m.lo + i) % 256) ∧
    (m.hi ≤ m.lo + 256 → m.rangeToString = cs) ∧
    (m.lo + 256 < m.hi → m.rangeToString = cs ++ " (rest omitted)".toList) := by
  refine ⟨((List.range' m.lo (m.hi - m.lo)).take 256).map byteChar, by simp, ?_, ?_, ?_⟩
  · intro i c h
    simp only [List.getElem?_map, List.getElem?_take, Option.map_eq_some_iff] at h
    obtain ⟨n, h, rfl⟩ := h
    split at h
    · obtain ⟨_, rfl⟩ := List.getElem?_eq_some_iff.1 h
      rw [byteChar_toNat, List.getElem_range', Nat.one_mul]
    · cases h
  · intro h
    unfold Match.rangeToString
    rw [if_neg (by omega), List.append_nil]
  · intro h
    unfold Match.rangeToString
    rw [if_pos (by omega)]

example : (⟨97, 100⟩ : Match).rangeToString = ['a', 'b', 'c'] := by decide

/-- **C85 for the first 256 characters.**  For a range that ends there the text is the matched characters, each once, in order.
Missing: other ranges (`C85_false`). -/
theorem C85_latin_partial (m : Match) (h : m.hi ≤ 256) :
    (∀ c : Char, c ∈ m.rangeToString ↔ m.lo ≤ c.toNat ∧ c.toNat < m.hi) ∧
    m.rangeToString.Pairwise fun a b => a.toNat < b.toNat := by
  have e : m.rangeToString = (List.range' m.lo (m.hi - m.lo)).map byteChar := by
    unfold Match.rangeToString
    rw [if_neg (by omega), List.append_nil, List.take_of_length_le (by simp; omega)]
  rw [e]
  constructor
  · intro c
    simp only [List.mem_map, List.mem_range'_1]
    constructor
    · rintro ⟨n, hn, hc⟩
      have := (byteChar_eq (by omega)).1 hc
      omega
    · intro hc
      exact ⟨c.toNat, by omega, (byteChar_eq (by omega)).2 rfl⟩
  · rw [List.pairwise_map]
    refine (List.pairwise_lt_range' (s := m.lo) (n := m.hi - m.lo) (step := 1)).imp_of_mem fun {a b} ha hb hab => ?_
    rw [List.mem_range'_1] at ha hb
    rw [byteChar_toNat, byteChar_toNat, Nat.mod_eq_of_lt (by omega), Nat.mod_eq_of_lt (by omega)]
    exact hab

example : (⟨48, 58⟩ : Match).hi ≤ 256 ∧ '7' ∈ (⟨48, 58⟩ : Match).rangeToString := by decide

/-- **C85 is false.**  The range of the letter λ alone is printed as another character, which it does not match. -/
theorem C85_false : ∃ m : Match, (m.lo ≤ 'λ'.toNat ∧ 'λ'.toNat < m.hi) ∧ 'λ' ∉ m.rangeToString ∧
    ∃ c ∈ m.rangeToString, ¬ (m.lo ≤ c.toNat ∧ c.toNat < m.hi) :=
  ⟨⟨955, 956⟩, by decide, by decide, '»', by decide, by decide⟩

/-- **C85, transitions.**  The debug text of a transition tells its range. -/
theorem C85_apart (m n : Match) (h : m.debug = n.debug) : m = n := by
  unfold Match.debug at h
  simp only [List.append_assoc] at h
  have h := List.append_cancel_left h
  have dot : ∀ s : Str, "..".toList ++ s = '.' :: ('.' :: s) := fun s => rfl
  have comma : ∀ s : Str, ", (pretty range): ".toList ++ s = ',' :: (" (pretty range): ".toList ++ s) := fun s => rfl
  rw [dot, dot] at h
  obtain ⟨h1, h⟩ := digits_append (by decide) h
  have h := (List.cons.inj h).2
  rw [comma, comma] at h
  obtain ⟨h2, -⟩ := digits_append (by decide) h
  cases m; cases n; simp_all

example : (⟨955, 956⟩ : Match).rangeToString = (⟨187, 188⟩ : Match).rangeToString ∧
    (⟨955, 956⟩ : Match).debug ≠ (⟨187, 188⟩ : Match).debug :=
  ⟨by decide, fun h => nomatch Nat.succ.inj (congrArg Match.lo (C85_apart _ _ h))⟩

-- The whole text of `[!-#]`, with its quote escaped.
example : (⟨33, 36⟩ : Match).debug = "Match { range: 33..36, (pretty range): \"!\\\"#\" }".toList := by decide +kernel

/-! ## C86: the list of characters in chars.ts -/

/-- **C86, exactly.**  The file declares the visible numbers below 256 that are the remainder of a member of the class, each
once, in increasing order, as strings. -/
theorem C86_lists (rs : List Match) : ∃ ns : List Nat, ns.Pairwise (· < ·) ∧ ListsChars ns (CharsFile.text rs) ∧
    ∀ n, n ∈ ns ↔ ¬ Invisible n ∧ ∃ m ∈ rs, ∃ c, m.lo ≤ c ∧ c < m.hi ∧ c % 256 = n :=
  ⟨CharsFile.charSet rs, CharsFile.charSet_pairwise rs, CharsFile.text_declares rs, CharsFile.mem_charSet rs⟩

/-- **C86 for the first 256 characters.**  The file lists the visible characters of a class within them.
Missing: other classes (`C86_false`). -/
theorem C86_class_partial (rs : List Match) (h : ∀ m ∈ rs, m.hi ≤ 256) : ∃ ns : List Nat, ns.Pairwise (· < ·) ∧
    ListsChars ns (CharsFile.text rs) ∧ ∀ n, n ∈ ns ↔ ¬ Invisible n ∧ ∃ m ∈ rs, m.lo ≤ n ∧ n < m.hi := by
  obtain ⟨ns, h1, h2, h3⟩ := C86_lists rs
  refine ⟨ns, h1, h2, fun n => (h3 n).trans (and_congr_right fun _ => ?_)⟩
  constructor
  · rintro ⟨m, hm, c, h4, h5, rfl⟩
    have := h m hm
    rw [Nat.mod_eq_of_lt (by omega)]
    exact ⟨m, hm, h4, h5⟩
  · rintro ⟨m, hm, h4, h5⟩
    have := h m hm
    exact ⟨m, hm, n, h4, h5, Nat.mod_eq_of_lt (by omega)⟩

example : CharsFile.text [⟨91, 93⟩, ⟨32, 35⟩] = "type Characters = [\n\"!\",\n\"\\\"\",\n\"[\",\n\"\\\\\",]".toList := by
  decide +kernel

/-- The list in a declaration is determined by its text. -/
theorem C86_reads {ns ks : List Nat} {t : Str} (hn : ∀ n ∈ ns, n < 256) (hk : ∀ n ∈ ks, n < 256)
    (h1 : ListsChars ns t) (h2 : ListsChars ks t) : ns = ks := ListsChars.unique hn hk h1 h2

example : ∀ ks : List Nat, (∀ n ∈ ks, n < 256) → ListsChars ks (CharsFile.text [⟨97, 99⟩]) → ks = [97, 98] := fun ks hk h =>
  C86_reads hk (by decide) h (by
    have : CharsFile.charSet [⟨97, 99⟩] = [97, 98] := by decide +kernel
    exact this ▸ CharsFile.text_declares _)

/-- **C86 is false.**  The letter λ is visible and in the class of `.`, but the file does not list it; and for the class with
λ alone it lists a character which is not in the class. -/
theorem C86_false :
    (∃ m ∈ CharsFile.dot, m.lo ≤ 'λ'.toNat ∧ 'λ'.toNat < m.hi) ∧ ¬ Invisible 'λ'.toNat ∧ 'λ' ∉ CharsFile.text CharsFile.dot ∧
    ListsChars ['»'.toNat] (CharsFile.text [⟨'λ'.toNat, 'λ'.toNat + 1⟩]) := by
  refine ⟨⟨⟨11, 0x110000⟩, by decide, by decide, by decide⟩, by decide, ?_, ?_⟩
  · rw [CharsFile.text_dot]; decide +kernel
  · have : CharsFile.charSet [⟨'λ'.toNat, 'λ'.toNat + 1⟩] = ['»'.toNat] := by decide +kernel
    rw [← this]
    exact CharsFile.text_declares _

/-- **C86 for the file of the repository.**  It is what the code writes for `.`. -/
theorem C86_repo : CharsFile.text CharsFile.dot = Tests.RepoChars.charsText.flatten := by
  rw [CharsFile.text_dot]; decide +kernel

end Verif.Props
