import Verif.Model.ParseText
import Verif.Spec.TsSyntax
import Verif.Proofs.ScanOk

/-! # Scanning generated text as TypeScript -/

namespace Verif.Spec.TsSyntax
open Verif LexGen

/-- Scan a text from a given state. -/
def scanFrom (s : Scan) (text : Str) : Scan := text.foldl scanStep s

/-- Outside template literals, with these words so far. -/
def at_ (ws : List Word) (m : Mode) : Scan := ⟨ws.reverse, m, []⟩

/-- In a word that begins with `w`. -/
def wd (w : Str) : Mode := .word w.reverse

/-- In a string that begins with `w`. -/
def qt (q : Char) (w : Str) : Mode := .str q w.reverse

/-- In a template literal, after `w`. -/
def tm (w : Str) : Mode := .tmpl w.reverse

theorem scanFrom_append (s : Scan) (a b : Str) : scanFrom s (a ++ b) = scanFrom (scanFrom s a) b := List.foldl_append

theorem scanFrom_nil (s : Scan) : scanFrom s [] = s := rfl

theorem between_out (out : List Word) (h : List Nat) (c : Char) :
    between out h c = ⟨(between [] h c).out ++ out, (between [] h c).mode, (between [] h c).holes⟩ := by
  unfold between
  split_ifs <;> try rfl
  · cases h <;> rfl
  · rcases h with _ | ⟨_ | d, ds⟩ <;> rfl

theorem scanStep_out (m : Mode) (out : List Word) (h : List Nat) (c : Char) :
    scanStep ⟨out, m, h⟩ c =
      ⟨(scanStep ⟨[], m, h⟩ c).out ++ out, (scanStep ⟨[], m, h⟩ c).mode, (scanStep ⟨[], m, h⟩ c).holes⟩ := by
  cases m with
  | between => exact between_out out h c
  | word w =>
    simp only [scanStep]
    split_ifs
    · rfl
    · rw [between_out, between_out [_]]; simp
  | num n =>
    simp only [scanStep]
    split_ifs
    · rfl
    · rw [between_out, between_out [_]]; simp
  | str q w => simp only [scanStep]; split_ifs <;> rfl
  | strEsc q w => simp only [scanStep]; cases unescape c <;> rfl
  | slash => simp only [scanStep]; split_ifs <;> rfl
  | line => simp only [scanStep]; split_ifs <;> rfl
  | block => simp only [scanStep]; split_ifs <;> rfl
  | blockStar => simp only [scanStep]; split_ifs <;> rfl
  | tmpl w => simp only [scanStep]; split_ifs <;> rfl
  | tmplEsc w => simp only [scanStep]; cases unescape c <;> rfl
  | tmplDollar w => simp only [scanStep]; split_ifs <;> rfl
  | bad => rfl

theorem scan_out (text : Str) : ∀ (m : Mode) (out : List Word) (h : List Nat),
    scanFrom ⟨out, m, h⟩ text =
      ⟨(scanFrom ⟨[], m, h⟩ text).out ++ out, (scanFrom ⟨[], m, h⟩ text).mode, (scanFrom ⟨[], m, h⟩ text).holes⟩ := by
  induction text with
  | nil => intro m out h; rfl
  | cons c text ih =>
    intro m out h
    have e : ∀ o, scanFrom ⟨o, m, h⟩ (c :: text) = scanFrom (scanStep ⟨o, m, h⟩ c) text := fun o => rfl
    rw [e, e, scanStep_out, ih, ih (scanStep ⟨[], m, h⟩ c).mode (scanStep ⟨[], m, h⟩ c).out]
    simp

/-- It suffices to scan from no words. -/
theorem scan_of {m m' : Mode} {text : Str} {ws : List Word} (h : scanFrom (at_ [] m) text = at_ ws m') (out : List Word) :
    scanFrom (at_ out m) text = at_ (out ++ ws) m' := by
  unfold at_ at h ⊢
  rw [scan_out]
  simp only [List.reverse_nil] at h
  rw [h, List.reverse_append]

/-- The text of a word or a number has ended. -/
theorem scan_wd {c : Char} {t : Str} {w : Str} (h : (isAlpha c || isNum c || c == '.') = false) (out : List Word) :
    scanFrom (at_ out (wd w)) (c :: t) = scanFrom (at_ (out ++ [.id w]) .between) (c :: t) := by
  simp [scanFrom, at_, wd, scanStep, h]

theorem scan_num {c : Char} {t : Str} {n : Nat} (h : isNum c = false) (out : List Word) :
    scanFrom (at_ out (.num n)) (c :: t) = scanFrom (at_ (out ++ [.num n]) .between) (c :: t) := by
  simp [scanFrom, at_, scanStep, h]

theorem scan_qt {q : Char} {t : Str} {w : Str} (out : List Word) :
    scanFrom (at_ out (qt q w)) (q :: t) = scanFrom (at_ (out ++ [.str w]) .between) t := by
  simp [scanFrom, at_, qt, scanStep]

theorem scan_tm {t : Str} {w : Str} (out : List Word) :
    scanFrom (at_ out (tm w)) ('`' :: t) = scanFrom (at_ (out ++ [.chunk w, .tock]) .between) t := by
  simp [scanFrom, at_, tm, scanStep]

/-- A literal after a word. -/
theorem scan_wd_of {c : Char} {t : Str} {m' : Mode} {ws : List Word} (h : (isAlpha c || isNum c || c == '.') = false)
    (h' : scanFrom (at_ [] .between) (c :: t) = at_ ws m') (w : Str) (out : List Word) :
    scanFrom (at_ out (wd w)) (c :: t) = at_ (out ++ (.id w :: ws)) m' := by
  rw [scan_wd h, scan_of h', List.append_assoc]
  rfl

theorem scan_num_of {c : Char} {t : Str} {m' : Mode} {ws : List Word} (h : isNum c = false)
    (h' : scanFrom (at_ [] .between) (c :: t) = at_ ws m') (n : Nat) (out : List Word) :
    scanFrom (at_ out (.num n)) (c :: t) = at_ (out ++ (.num n :: ws)) m' := by
  rw [scan_num h, scan_of h', List.append_assoc]
  rfl

theorem scan_qt_of {q : Char} {t : Str} {m' : Mode} {ws : List Word}
    (h' : scanFrom (at_ [] .between) t = at_ ws m') (w : Str) (out : List Word) :
    scanFrom (at_ out (qt q w)) (q :: t) = at_ (out ++ (.str w :: ws)) m' := by
  rw [scan_qt, scan_of h', List.append_assoc]
  rfl

theorem digit_isNum {n : Nat} (h : n < 10) : isNum (Char.ofNat (48 + n)) = true := by
  have : n = 0 ∨ n = 1 ∨ n = 2 ∨ n = 3 ∨ n = 4 ∨ n = 5 ∨ n = 6 ∨ n = 7 ∨ n = 8 ∨ n = 9 := by omega
  rcases this with h | h | h | h | h | h | h | h | h | h <;> subst h <;> rfl

theorem between_digit {n : Nat} (h : n < 10) (out : List Word) :
    between out [] (Char.ofNat (48 + n)) = ⟨out, .num n, []⟩ := by
  have : n = 0 ∨ n = 1 ∨ n = 2 ∨ n = 3 ∨ n = 4 ∨ n = 5 ∨ n = 6 ∨ n = 7 ∨ n = 8 ∨ n = 9 := by omega
  rcases this with h | h | h | h | h | h | h | h | h | h <;> subst h <;> rfl

theorem scan_digits (n : Nat) (out : List Word) : scanFrom (at_ out .between) (digits n) = at_ out (.num n) := by
  induction n using Nat.strongRecOn with
  | _ n ih =>
    unfold digits
    split
    · next h => exact between_digit h out.reverse
    · next h =>
      rw [scanFrom_append, ih (n / 10) (by omega)]
      have h1 : n % 10 < 10 := Nat.mod_lt _ (by omega)
      simp only [scanFrom, at_, List.foldl_cons, List.foldl_nil, scanStep, digit_isNum h1, if_true, digit_toNat h1]
      congr 2
      omega

theorem digits_isNum (n : Nat) : ∀ c ∈ digits n, isNum c = true := by
  induction n using Nat.strongRecOn with
  | _ n ih =>
    unfold digits
    split
    · next h => simp [digit_isNum h]
    · next h =>
      intro c hc
      rcases List.mem_append.mp hc with hc | hc
      · exact ih (n / 10) (by omega) c hc
      · rw [List.mem_singleton.mp hc]
        exact digit_isNum (Nat.mod_lt _ (by omega))

/-- The rest of a word. -/
theorem scan_word : ∀ (s w : Str) (out : List Word), (∀ c ∈ s, (isAlpha c || isNum c || c == '.') = true) →
    scanFrom (at_ out (wd w)) s = at_ out (wd (w ++ s))
  | [], w, out, _ => by simp [scanFrom]
  | c :: s, w, out, h => by
    have hc := h c (by simp)
    have := scan_word s (w ++ [c]) out fun x hx => h x (by simp [hx])
    simp only [scanFrom, at_, wd, List.foldl_cons, scanStep, hc, if_true, List.reverse_append, List.reverse_cons, List.reverse_nil,
      List.nil_append, List.cons_append] at this ⊢
    rw [this]
    simp

theorem scan_word_digits (n : Nat) (w : Str) (out : List Word) :
    scanFrom (at_ out (wd w)) (digits n) = at_ out (wd (w ++ digits n)) :=
  scan_word _ _ _ fun c hc => by simp [digits_isNum n c hc]

theorem alpha_of_start {c : Char} (h : isWordStart c = true) : isAlpha c = true := by
  simp only [isWordStart, isAlpha, Bool.or_eq_true, decide_eq_true_eq, Bool.and_eq_true] at h ⊢
  exact h

theorem num_of_digit {c : Char} (h : isDigit c = true) : isNum c = true := by
  simp only [isDigit, isNum, decide_eq_true_eq, Bool.and_eq_true] at h ⊢
  exact h

theorem word_of_char {c : Char} (h : isWordChar c = true) : (isAlpha c || isNum c || c == '.') = true := by
  simp only [isWordChar, Bool.or_eq_true] at h
  rcases h with h | h
  · simp [alpha_of_start h]
  · simp [num_of_digit h]

theorem wordChars {s : Str} (h : WordName s) : ∀ c ∈ s, (isAlpha c || isNum c || c == '.') = true := by
  obtain ⟨c, s', rfl, h1, h2⟩ := h
  intro x hx
  rcases List.mem_cons.mp hx with rfl | hx
  · simp [alpha_of_start h1]
  · exact word_of_char (h2 x hx)

/-- A name after the beginning of a word. -/
theorem scan_name {s : Str} (h : WordName s) (w : Str) (out : List Word) :
    scanFrom (at_ out (wd w)) s = at_ out (wd (w ++ s)) := scan_word _ _ _ (wordChars h)

/-- A name. -/
theorem scan_ident {s : Str} (h : WordName s) (out : List Word) : scanFrom (at_ out .between) s = at_ out (wd s) := by
  have hw := wordChars h
  obtain ⟨c, s', rfl, h1, h2⟩ := h
  have e : scanFrom (at_ out .between) (c :: s') = scanFrom (between out.reverse [] c) s' := rfl
  have n1 : isBlank c = false := by
    simp only [isBlank, Bool.or_eq_false_iff, beq_eq_false_iff_ne, ne_eq]
    refine ⟨⟨⟨?_, ?_⟩, ?_⟩, ?_⟩ <;> rintro rfl <;> revert h1 <;> decide
  have e2 : between out.reverse [] c = at_ out (wd [c]) := by
    simp [between, n1, alpha_of_start h1, at_, wd]
  rw [e, e2, scan_word _ _ _ fun x hx => hw x (List.mem_cons_of_mem _ hx)]
  rfl

/-- A name between double quotes. -/
theorem scan_plain2 : ∀ (s w : Str) (out : List Word), Plain2 s →
    scanFrom (at_ out (qt '"' w)) s = at_ out (qt '"' (w ++ s))
  | [], w, out, _ => by simp [scanFrom]
  | c :: s, w, out, h => by
    obtain ⟨h1, h3, h4⟩ := h c (by simp)
    have := scan_plain2 s (w ++ [c]) out fun x hx => h x (by simp [hx])
    have h5 : ¬(c = '\n' ∨ c = '\r') := by
      rintro (rfl | rfl) <;> revert h4 <;> decide
    simp only [scanFrom, at_, qt, List.foldl_cons, scanStep, if_neg h1, if_neg h3, if_neg h5, List.reverse_append, List.reverse_cons,
      List.reverse_nil, List.nil_append, List.cons_append] at this ⊢
    rw [this]
    simp

/-- A name between single quotes. -/
theorem scan_plain1 : ∀ (s w : Str) (out : List Word), PlainName s →
    scanFrom (at_ out (qt '\'' w)) s = at_ out (qt '\'' (w ++ s))
  | [], w, out, _ => by simp [scanFrom]
  | c :: s, w, out, h => by
    obtain ⟨-, h1, h3, h4⟩ := h c (by simp)
    have := scan_plain1 s (w ++ [c]) out fun x hx => h x (by simp [hx])
    have h5 : ¬(c = '\n' ∨ c = '\r') := by
      rintro (rfl | rfl) <;> revert h4 <;> decide
    simp only [scanFrom, at_, qt, List.foldl_cons, scanStep, if_neg h1, if_neg h3, if_neg h5, List.reverse_append, List.reverse_cons,
      List.reverse_nil, List.nil_append, List.cons_append] at this ⊢
    rw [this]
    simp

/-- Text in a template literal. -/
theorem scan_tmpl : ∀ (s w : Str) (out : List Word), (∀ c ∈ s, c ≠ '`' ∧ c ≠ '\\' ∧ c ≠ '$') →
    scanFrom (at_ out (tm w)) s = at_ out (tm (w ++ s))
  | [], w, out, _ => by simp [scanFrom]
  | c :: s, w, out, h => by
    obtain ⟨h1, h2, h3⟩ := h c (by simp)
    have := scan_tmpl s (w ++ [c]) out fun x hx => h x (by simp [hx])
    simp only [scanFrom, at_, tm, List.foldl_cons, scanStep, if_neg h1, if_neg h2, if_neg h3, List.reverse_append, List.reverse_cons,
      List.reverse_nil, List.nil_append, List.cons_append] at this ⊢
    rw [this]
    simp

theorem isNum_plain {c : Char} (h : isNum c = true) : c ≠ '"' ∧ c ≠ '\\' ∧ c ≠ '`' ∧ c ≠ '$' ∧ isBreak c = false := by
  refine ⟨?_, ?_, ?_, ?_, ?_⟩
  · rintro rfl; revert h; decide
  · rintro rfl; revert h; decide
  · rintro rfl; revert h; decide
  · rintro rfl; revert h; decide
  · simp only [isBreak, Bool.or_eq_false_iff, beq_eq_false_iff_ne, ne_eq]
    refine ⟨⟨⟨?_, ?_⟩, ?_⟩, ?_⟩ <;> rintro rfl <;> revert h <;> decide

theorem scan_tm_digits (n : Nat) (w : Str) (out : List Word) : scanFrom (at_ out (tm w)) (digits n) = at_ out (tm (w ++ digits n)) :=
  scan_tmpl _ _ _ fun c hc => by
    have := isNum_plain (digits_isNum n c hc)
    exact ⟨this.2.2.1, this.2.1, this.2.2.2.1⟩

theorem scan_qt_digits (n : Nat) (w : Str) (out : List Word) :
    scanFrom (at_ out (qt '"' w)) (digits n) = at_ out (qt '"' (w ++ digits n)) :=
  scan_plain2 _ _ _ fun c hc => by
    have := isNum_plain (digits_isNum n c hc)
    exact ⟨this.1, this.2.1, this.2.2.2.2⟩

/-- An escaped backquote in a template literal. -/
theorem scan_tm_tick (w : Str) (out : List Word) : scanFrom (at_ out (tm w)) "\\`".toList = at_ out (tm (w ++ ['`'])) := by
  have : unescape '`' = some '`' := by decide
  simp [scanFrom, at_, tm, scanStep, this]

/-- A list of parts. -/
theorem scan_flatMap {α : Type} {f : α → Str} {g : α → List Word} {l : List α}
    (h : ∀ a ∈ l, ∀ out, scanFrom (at_ out .between) (f a) = at_ (out ++ g a) .between) (out : List Word) :
    scanFrom (at_ out .between) (l.flatMap f) = at_ (out ++ l.flatMap g) .between := by
  induction l generalizing out with
  | nil => simp [scanFrom]
  | cons a l ih =>
    rw [List.flatMap_cons, scanFrom_append, h a (by simp), ih (fun b hb => h b (by simp [hb])), List.flatMap_cons, List.append_assoc]

/-- Where a text that can be scanned ends. -/
theorem scan_code {code : Str} {ws : List Word} (h : scan code = some ws) {c : Char} (hc : isBlank c = true)
    (hl : c = '\n' ∨ (scanFrom ⟨[], .between, []⟩ code).mode ≠ .line) (t : Str) (out : List Word) :
    scanFrom (scanFrom (at_ out .between) code) (c :: t) = scanFrom (at_ (out ++ ws) .between) (c :: t) := by
  have ha : (isAlpha c || isNum c || c == '.') = false := by
    simp only [isBlank, Bool.or_eq_true, beq_iff_eq] at hc
    rcases hc with ((rfl | rfl) | rfl) | rfl <;> decide
  have hn : isNum c = false := by
    simp only [Bool.or_eq_false_iff] at ha
    exact ha.1.2
  rw [show scanFrom (at_ out .between) code = _ from scan_out code .between out.reverse []]
  unfold scan at h
  change (match (scanFrom ⟨[], .between, []⟩ code).mode, (scanFrom ⟨[], .between, []⟩ code).holes with
    | .between, [] => some (scanFrom ⟨[], .between, []⟩ code).out.reverse
    | .word w, [] => some (Word.id w.reverse :: (scanFrom ⟨[], .between, []⟩ code).out).reverse
    | .num n, [] => some (Word.num n :: (scanFrom ⟨[], .between, []⟩ code).out).reverse
    | .line, [] => some (scanFrom ⟨[], .between, []⟩ code).out.reverse
    | _, _ => none) = some ws at h
  revert h hl
  generalize scanFrom ⟨[], .between, []⟩ code = s
  obtain ⟨o, m, hs⟩ := s
  intro hl h
  simp only at h hl ⊢
  split at h
  · obtain rfl := Option.some.inj h
    simp [at_]
  · obtain rfl := Option.some.inj h
    rename_i w
    have := scan_wd (c := c) (t := t) (w := w.reverse) ha (out ++ o.reverse)
    simpa [at_, wd] using this
  · obtain rfl := Option.some.inj h
    rename_i n
    have := scan_num (c := c) (t := t) (n := n) hn (out ++ o.reverse)
    simpa [at_] using this
  · obtain rfl := Option.some.inj h
    obtain rfl := hl.resolve_right (by simp)
    simp [at_, scanFrom, scanStep, between, isBlank]
  · cases h

/-- The words of a text, when its end is seen. -/
theorem scan_eq {text : Str} {ws : List Word} (h : scanFrom (at_ [] .between) text = at_ ws .between) : scan text = some ws := by
  unfold scan
  change (match (scanFrom (at_ [] .between) text).mode, (scanFrom (at_ [] .between) text).holes with
    | .between, [] => some (scanFrom (at_ [] .between) text).out.reverse
    | .word w, [] => some (Word.id w.reverse :: (scanFrom (at_ [] .between) text).out).reverse
    | .num n, [] => some (Word.num n :: (scanFrom (at_ [] .between) text).out).reverse
    | .line, [] => some (scanFrom (at_ [] .between) text).out.reverse
    | _, _ => none) = some ws
  rw [h]
  simp [at_]

end Verif.Spec.TsSyntax
