import Mathlib.Data.List.Induction
import Verif.Model.ParseText
import Verif.Spec.TsText

/-! # Scanning generated text -/

namespace Verif.Spec
open Verif LexGen

/-- Scan a text from a given state. -/
def scanFrom (s : TsScan) (text : Str) : TsScan := text.foldl scanStep s

theorem scanFrom_append (s : TsScan) (a b : Str) : scanFrom s (a ++ b) = scanFrom (scanFrom s a) b := List.foldl_append

theorem digit_toNat {n : Nat} (h : n < 10) : (Char.ofNat (48 + n)).toNat = 48 + n := by
  have : n = 0 ∨ n = 1 ∨ n = 2 ∨ n = 3 ∨ n = 4 ∨ n = 5 ∨ n = 6 ∨ n = 7 ∨ n = 8 ∨ n = 9 := by omega
  rcases this with h | h | h | h | h | h | h | h | h | h <;> subst h <;> rfl

theorem digit_isDigit {n : Nat} (h : n < 10) : isDigit (Char.ofNat (48 + n)) = true := by
  have : n = 0 ∨ n = 1 ∨ n = 2 ∨ n = 3 ∨ n = 4 ∨ n = 5 ∨ n = 6 ∨ n = 7 ∨ n = 8 ∨ n = 9 := by omega
  rcases this with h | h | h | h | h | h | h | h | h | h <;> subst h <;> rfl

theorem scanBetween_digit {n : Nat} (h : n < 10) (out : List TsTok) :
    scanBetween out (Char.ofNat (48 + n)) = ⟨.digits n, out⟩ := by
  have : n = 0 ∨ n = 1 ∨ n = 2 ∨ n = 3 ∨ n = 4 ∨ n = 5 ∨ n = 6 ∨ n = 7 ∨ n = 8 ∨ n = 9 := by omega
  rcases this with h | h | h | h | h | h | h | h | h | h <;> subst h <;> rfl

theorem scan_digits (n : Nat) (out : List TsTok) : scanFrom ⟨.between, out⟩ (digits n) = ⟨.digits n, out⟩ := by
  induction n using Nat.strongRecOn with
  | _ n ih =>
    unfold digits
    split
    · next h => exact scanBetween_digit h out
    · next h =>
      rw [scanFrom_append, ih (n / 10) (by omega)]
      have h1 : n % 10 < 10 := Nat.mod_lt _ (by omega)
      have h2 : n / 10 ≠ 0 := by omega
      simp only [scanFrom, List.foldl_cons, List.foldl_nil, scanStep, digit_isDigit h1, if_true, if_neg h2, digit_toNat h1]
      congr 2
      have : '0'.toNat = 48 := rfl
      omega

theorem digits_chars (n : Nat) : ∀ c ∈ digits n, isDigit c = true := by
  induction n using Nat.strongRecOn with
  | _ n ih =>
    unfold digits
    split
    · next h => simpa using digit_isDigit h
    · next h =>
      intro c hc
      rcases List.mem_append.mp hc with hc | hc
      · exact ih _ (by omega) c hc
      · rw [List.mem_singleton.mp hc]
        exact digit_isDigit (Nat.mod_lt _ (by omega))

theorem scan_word : ∀ (s w : Str) (out : List TsTok), (∀ c ∈ s, isWordChar c = true) →
    scanFrom ⟨.word w, out⟩ s = ⟨.word (w ++ s), out⟩
  | [], w, out, _ => by simp [scanFrom]
  | c :: s, w, out, h => by
    have hc := h c (by simp)
    have := scan_word s (w ++ [c]) out fun x hx => h x (by simp [hx])
    simp only [scanFrom, List.foldl_cons, scanStep, hc, if_true] at this ⊢
    rw [this]
    simp

theorem scan_word_digits (n : Nat) (w : Str) (out : List TsTok) :
    scanFrom ⟨.word w, out⟩ (digits n) = ⟨.word (w ++ digits n), out⟩ :=
  scan_word _ _ _ fun c hc => by simp [isWordChar, digits_chars n c hc]

theorem scan_plain (q : Char) (hq : q = '"' ∨ q = '\'') : ∀ (s w : Str) (out : List TsTok), PlainName s →
    scanFrom ⟨.quoted q w, out⟩ s = ⟨.quoted q (w ++ s), out⟩
  | [], w, out, _ => by simp [scanFrom]
  | c :: s, w, out, h => by
    obtain ⟨h1, h2, h3, h4⟩ := h c (by simp)
    have := scan_plain q hq s (w ++ [c]) out fun x hx => h x (by simp [hx])
    have h5 : (c == q) = false := by
      rcases hq with rfl | rfl <;> simp_all
    have h6 : (c == '\\') = false := by simp_all
    simp only [scanFrom, List.foldl_cons, scanStep, h5, h6, h4, Bool.false_eq_true, if_false] at this ⊢
    rw [this]
    simp

theorem scanBetween_out (out : List TsTok) (c : Char) :
    scanBetween out c = ⟨(scanBetween [] c).mode, out ++ (scanBetween [] c).out⟩ := by
  unfold scanBetween
  split_ifs <;> simp

theorem scanStep_out (m : Scanning) (out : List TsTok) (c : Char) :
    scanStep ⟨m, out⟩ c = ⟨(scanStep ⟨m, []⟩ c).mode, out ++ (scanStep ⟨m, []⟩ c).out⟩ := by
  cases m with
  | between => exact scanBetween_out out c
  | digits n =>
    simp only [scanStep]
    split_ifs
    · simp
    · simp
    · simp
    · rw [scanBetween_out, scanBetween_out ([] ++ _)]; simp
  | word w =>
    simp only [scanStep]
    split_ifs
    · simp
    · rw [scanBetween_out, scanBetween_out ([] ++ _)]; simp
  | quoted q w => simp only [scanStep]; split_ifs <;> simp
  | escape q w => simp only [scanStep]; cases escaped c <;> simp
  | slash => simp only [scanStep]; split_ifs <;> simp
  | comment => simp only [scanStep]; split_ifs <;> simp
  | star => simp only [scanStep]; split_ifs <;> simp
  | bad => simp [scanStep]

theorem scan_out (text : Str) : ∀ (m : Scanning) (out : List TsTok),
    scanFrom ⟨m, out⟩ text = ⟨(scanFrom ⟨m, []⟩ text).mode, out ++ (scanFrom ⟨m, []⟩ text).out⟩ := by
  induction text with
  | nil => intro m out; simp [scanFrom]
  | cons c text ih =>
    intro m out
    have e : ∀ o, scanFrom ⟨m, o⟩ (c :: text) = scanFrom (scanStep ⟨m, o⟩ c) text := fun o => rfl
    rw [e, e, scanStep_out, ih, ih (scanStep ⟨m, []⟩ c).mode (scanStep ⟨m, []⟩ c).out]
    simp

/-- It suffices to scan from no words. -/
theorem scan_of {m m' : Scanning} {text : Str} {toks : List TsTok} (h : scanFrom ⟨m, []⟩ text = ⟨m', toks⟩) (out : List TsTok) :
    scanFrom ⟨m, out⟩ text = ⟨m', out ++ toks⟩ := by
  rw [scan_out, h]

/-- Apart from the quotes themselves, quoted text scans the same in both quotes. -/
theorem scan_same : ∀ (s w : Str) (out : List TsTok), (∀ c ∈ s, c ≠ '"' ∧ c ≠ '\'') →
    (∃ w', scanFrom ⟨.quoted '"' w, out⟩ s = ⟨.quoted '"' w', out⟩ ∧
      scanFrom ⟨.quoted '\'' w, out⟩ s = ⟨.quoted '\'' w', out⟩) ∨
    (∃ w', scanFrom ⟨.quoted '"' w, out⟩ s = ⟨.escape '"' w', out⟩ ∧
      scanFrom ⟨.quoted '\'' w, out⟩ s = ⟨.escape '\'' w', out⟩) ∨
    (scanFrom ⟨.quoted '"' w, out⟩ s = ⟨.bad, out⟩ ∧ scanFrom ⟨.quoted '\'' w, out⟩ s = ⟨.bad, out⟩) := by
  intro s
  induction s using List.reverseRecOn with
  | nil => exact fun w out _ => .inl ⟨w, rfl, rfl⟩
  | append_singleton s c ih =>
    intro w out h
    obtain ⟨h1, h2⟩ := h c (by simp)
    have h5 : (c == '"') = false := by simp_all
    have h6 : (c == '\'') = false := by simp_all
    simp only [scanFrom_append]
    rcases ih w out fun x hx => h x (by simp [hx]) with ⟨w', e1, e2⟩ | ⟨w', e1, e2⟩ | ⟨e1, e2⟩
    · rw [e1, e2]
      simp only [scanFrom, List.foldl_cons, List.foldl_nil, scanStep, h5, h6, Bool.false_eq_true, if_false]
      by_cases h7 : (c == '\\') = true
      · simp [h7]
      · by_cases h8 : isBreak c = true
        · simp [h7, h8]
        · simp [h7, h8]
    · rw [e1, e2]
      simp only [scanFrom, List.foldl_cons, List.foldl_nil, scanStep]
      cases escaped c with
      | none => simp
      | some e => simp
    · rw [e1, e2]
      simp [scanFrom, scanStep]

end Verif.Spec
