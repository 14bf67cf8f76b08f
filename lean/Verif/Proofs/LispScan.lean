import Verif.Proofs.LispUser
import Verif.Spec.Scan

/-! # The words of basic_lisp.tlalr: cutting a text -/

namespace Verif.Props
open Verif Spec

/-! ## Numbers -/

/-- A digit other than 0, then digits. -/
def Number (s : Str) : Prop :=
  ∃ c ds, s = c :: ds ∧ ('1'.toNat ≤ c.toNat ∧ c.toNat ≤ '9'.toNat) ∧ ∀ d ∈ ds, Lisp.Digit d

theorem digitChar_nat : ∀ {d : Nat}, d < 10 → (Nat.digitChar d).toNat = 48 + d := by
  intro d h
  have : ∀ d : Fin 10, (Nat.digitChar d.val).toNat = 48 + d.val := by decide
  exact this ⟨d, h⟩

theorem digit_char {c : Char} (h : Lisp.Digit c) : c.toNat - 48 < 10 ∧ Nat.digitChar (c.toNat - 48) = c := by
  have h0 : '0'.toNat = 48 := by decide
  have h9 : '9'.toNat = 57 := by decide
  obtain ⟨h1, h2⟩ := h
  rw [h0] at h1
  rw [h9] at h2
  have hd : c.toNat - 48 < 10 := by omega
  refine ⟨hd, Char.toNat_inj.mp ?_⟩
  rw [digitChar_nat hd]
  omega

theorem number_iff {s : Str} : Number s ↔ ∃ n, s = Nat.toDigits 10 (n + 1) := by
  have h1' : '1'.toNat = 49 := by decide
  have h9' : '9'.toNat = 57 := by decide
  have h0' : '0'.toNat = 48 := by decide
  constructor
  · rintro ⟨c, ds, rfl, hc, hds⟩
    induction ds using List.reverseRecOn with
    | nil =>
      obtain ⟨h1, h2⟩ := digit_char (c := c) ⟨by omega, hc.2⟩
      refine ⟨c.toNat - 49, ?_⟩
      rw [Nat.toDigits_of_lt_base (by omega), ← show c.toNat - 48 = c.toNat - 49 + 1 from by omega, h2]
    | append_singleton ds d ih =>
      obtain ⟨n, hn⟩ := ih fun x hx => hds x (by simp [hx])
      obtain ⟨h1, h2⟩ := digit_char (hds d (by simp))
      refine ⟨10 * (n + 1) + (d.toNat - 48) - 1, ?_⟩
      rw [show 10 * (n + 1) + (d.toNat - 48) - 1 + 1 = 10 * (n + 1) + (d.toNat - 48) from by omega,
        ← Nat.toDigits_append_toDigits (by omega) (by omega) h1, ← hn, Nat.toDigits_of_lt_base h1, h2]
      simp
  · rintro ⟨n, rfl⟩
    generalize hm : n + 1 = m
    have hpos : 0 < m := by omega
    clear hm
    induction m using Nat.strongRecOn with
    | _ m ih =>
      by_cases hlt : m < 10
      · rw [Nat.toDigits_of_lt_base hlt]
        refine ⟨_, [], rfl, ?_, by simp⟩
        rw [digitChar_nat hlt, h1', h9']
        omega
      · obtain ⟨c, ds, h1, h2, h3⟩ := ih (m / 10) (by omega) (by omega)
        rw [Nat.toDigits_of_base_le (by omega) (by omega), h1]
        refine ⟨c, ds ++ [Nat.digitChar (m % 10)], by simp, h2, ?_⟩
        intro d hd
        simp only [List.mem_append, List.mem_singleton] at hd
        rcases hd with hd | rfl
        · exact h3 d hd
        · have := digitChar_nat (d := m % 10) (by omega)
          constructor <;> omega

/-! ## Matches -/

/-- The tokens of basic_lisp.tlalr. -/
def lispDefs : List (TokenDef × Hir) :=
  [(⟨"(".toList, true, some 1⟩, .lit 40), (⟨")".toList, true, some 2⟩, .lit 41),
   (⟨"add".toList, true, some 3⟩, .concat [.lit 97, .lit 100, .lit 100]),
   (⟨"[1-9]+[0-9]*".toList, true, some 7⟩, .concat [.rep .oneOrMore (.cls [(49, 57)]), .rep .zeroOrMore (.cls [(48, 57)])])]

theorem lisp_defs : Grammar.tokenDefs lispRx 0 (lower lispAst).tokens = .ok lispDefs := by
  rw [lisp_tokens]; rfl

theorem matches_lit {k : Nat} {w : Str} : Matches (.lit k) w ↔ ∃ c, w = [c] ∧ c.toNat = k := by
  constructor
  · rintro (_ | h)
    exact ⟨_, rfl, h⟩
  · rintro ⟨c, rfl, h⟩
    exact .lit h

theorem matches_one {a b : Nat} {w : Str} : Matches (.cls [(a, b)]) w ↔ ∃ c, w = [c] ∧ a ≤ c.toNat ∧ c.toNat ≤ b := by
  constructor
  · intro h
    cases h with
    | cls hr h1 h2 =>
      simp only [List.mem_cons, List.not_mem_nil, or_false] at hr
      subst hr
      exact ⟨_, rfl, h1, h2⟩
  · rintro ⟨c, rfl, h1, h2⟩
    exact .cls (r := (a, b)) (by simp) h1 h2

theorem matches_nil {w : Str} : Matches (.concat []) w ↔ w = [] := by
  constructor
  · intro h; cases h; rfl
  · rintro rfl; exact .concatNil

theorem matches_cons {h : Hir} {hs : List Hir} {w : Str} :
    Matches (.concat (h :: hs)) w ↔ ∃ u v, w = u ++ v ∧ Matches h u ∧ Matches (.concat hs) v := by
  constructor
  · intro h
    cases h with
    | concatCons h1 h2 => exact ⟨_, _, rfl, h1, h2⟩
  · rintro ⟨u, v, rfl, h1, h2⟩
    exact .concatCons h1 h2

theorem matches_star {a b : Nat} {w : Str} :
    Matches (.rep .zeroOrMore (.cls [(a, b)])) w ↔ ∀ c ∈ w, a ≤ c.toNat ∧ c.toNat ≤ b := by
  constructor
  · intro h
    generalize hh : Hir.rep .zeroOrMore (.cls [(a, b)]) = r at h
    induction h with
    | starNil => simp
    | starCons h1 h2 _ ih2 =>
      cases hh
      obtain ⟨c, rfl, hc⟩ := matches_one.mp h1
      intro x hx
      rcases List.mem_cons.mp hx with rfl | hx
      · exact hc
      · exact ih2 rfl x hx
    | _ => cases hh
  · induction w with
    | nil => exact fun _ => .starNil
    | cons c w ih =>
      intro h
      exact .starCons (w₁ := [c]) (matches_one.mpr ⟨c, rfl, h c (by simp)⟩) (ih fun x hx => h x (by simp [hx]))

theorem matches_number {w : Str} :
    Matches (.concat [.rep .oneOrMore (.cls [(49, 57)]), .rep .zeroOrMore (.cls [(48, 57)])]) w ↔ Number w := by
  have h1' : '1'.toNat = 49 := by decide
  have h9' : '9'.toNat = 57 := by decide
  have h0' : '0'.toNat = 48 := by decide
  simp only [matches_cons, matches_nil, matches_star]
  constructor
  · rintro ⟨u, _, rfl, hu, v, _, rfl, hv, rfl⟩
    cases hu with
    | @plus _ _ u2 hu1 hu2 =>
      obtain ⟨c, rfl, hc1, hc2⟩ := matches_one.mp hu1
      refine ⟨c, u2 ++ v, by simp, ⟨by omega, by omega⟩, ?_⟩
      intro d hd
      simp only [List.mem_append] at hd
      rcases hd with hd | hd
      · have := matches_star.mp hu2 d hd
        constructor <;> omega
      · have := hv d hd
        constructor <;> omega
  · rintro ⟨c, ds, rfl, hc, hds⟩
    refine ⟨[c], ds, rfl, .plus (w₁ := [c]) (w₂ := []) (matches_one.mpr ⟨c, rfl, by omega, by omega⟩) .starNil, ds, [], by simp, ?_, rfl⟩
    intro d hd
    have := hds d hd
    unfold Lisp.Digit at this
    omega

theorem char_eq {c d : Char} (h : c.toNat = d.toNat) : c = d := Char.toNat_inj.mp h

theorem matches_add {w : Str} : Matches (.concat [.lit 97, .lit 100, .lit 100]) w ↔ w = ['a', 'd', 'd'] := by
  simp only [matches_cons, matches_nil, matches_lit]
  constructor
  · rintro ⟨_, _, rfl, ⟨c, rfl, h1⟩, _, _, rfl, ⟨d, rfl, h2⟩, _, _, rfl, ⟨e, rfl, h3⟩, rfl⟩
    rw [char_eq (c := c) (d := 'a') (by rw [h1]; decide), char_eq (c := d) (d := 'd') (by rw [h2]; decide),
      char_eq (c := e) (d := 'd') (by rw [h3]; decide)]
    rfl
  · rintro rfl
    exact ⟨['a'], ['d', 'd'], rfl, ⟨_, rfl, rfl⟩, ['d'], ['d'], rfl, ⟨_, rfl, rfl⟩, ['d'], [], rfl, ⟨_, rfl, rfl⟩, rfl⟩

/-- The number of the token. -/
def wordIdx : Lisp.Word → Nat
  | .lpar => 0
  | .rpar => 1
  | .add => 2
  | .int _ => 3

theorem matches_idx {i : Nat} {p : TokenDef × Hir} (h : lispDefs[i]? = some p) {w : Str} :
    Matches p.2 w ↔ ∃ x : Lisp.Word, wordIdx x = i ∧ w = x.text := by
  have hi : i < 4 := (List.getElem?_eq_some_iff.mp h).1
  match i, hi with
  | 0, _ =>
    simp only [lispDefs, List.getElem?_cons_zero, Option.some.injEq] at h
    subst h
    rw [matches_lit]
    constructor
    · rintro ⟨c, rfl, h⟩
      exact ⟨.lpar, rfl, by rw [char_eq (c := c) (d := '(') (by rw [h]; decide)]; rfl⟩
    · rintro ⟨x, hx, rfl⟩
      cases x <;> simp [wordIdx] at hx
      exact ⟨'(', rfl, rfl⟩
  | 1, _ =>
    simp only [lispDefs, List.getElem?_cons_zero, List.getElem?_cons_succ, Option.some.injEq] at h
    subst h
    rw [matches_lit]
    constructor
    · rintro ⟨c, rfl, h⟩
      exact ⟨.rpar, rfl, by rw [char_eq (c := c) (d := ')') (by rw [h]; decide)]; rfl⟩
    · rintro ⟨x, hx, rfl⟩
      cases x <;> simp [wordIdx] at hx
      exact ⟨')', rfl, rfl⟩
  | 2, _ =>
    simp only [lispDefs, List.getElem?_cons_zero, List.getElem?_cons_succ, Option.some.injEq] at h
    subst h
    rw [matches_add]
    constructor
    · rintro rfl
      exact ⟨.add, rfl, rfl⟩
    · rintro ⟨x, hx, rfl⟩
      cases x <;> simp [wordIdx] at hx
      rfl
  | 3, _ =>
    simp only [lispDefs, List.getElem?_cons_zero, List.getElem?_cons_succ, Option.some.injEq] at h
    subst h
    rw [matches_number, number_iff]
    constructor
    · rintro ⟨n, rfl⟩
      exact ⟨.int n, rfl, rfl⟩
    · rintro ⟨x, hx, rfl⟩
      cases x <;> simp [wordIdx] at hx
      exact ⟨_, rfl⟩

theorem idx_def (x : Lisp.Word) : ∃ p, lispDefs[wordIdx x]? = some p := by
  cases x <;> exact ⟨_, rfl⟩

theorem matches_word {w : Str} : (∃ p ∈ lispDefs, Matches p.2 w) ↔ ∃ x : Lisp.Word, w = x.text := by
  constructor
  · rintro ⟨p, hp, h⟩
    obtain ⟨i, hi⟩ := List.mem_iff_getElem?.mp hp
    obtain ⟨x, _, h⟩ := (matches_idx hi).mp h
    exact ⟨x, h⟩
  · rintro ⟨x, rfl⟩
    obtain ⟨p, hp⟩ := idx_def x
    exact ⟨p, List.mem_of_getElem? hp, (matches_idx hp).mpr ⟨x, rfl, rfl⟩⟩

theorem text_ne_nil (x : Lisp.Word) : x.text ≠ [] := by
  cases x <;> simp [Lisp.Word.text, Nat.toDigits_ne_nil]

theorem int_number (n : Nat) : Number (Lisp.Word.int n).text := number_iff.mpr ⟨n, rfl⟩

/-- A word that begins with a word is that word, or both are numbers. -/
theorem text_prefix {x y : Lisp.Word} {r : Str} (h : y.text = x.text ++ r) :
    (r = [] ∧ wordIdx y = wordIdx x) ∨ (∃ n, x = .int n) ∧ ∃ c, r.head? = some c ∧ Lisp.Digit c := by
  have num : ∀ {n : Nat} {c : Char} {r : Str}, (Lisp.Word.int n).text = c :: r → '1'.toNat ≤ c.toNat ∧ c.toNat ≤ '9'.toNat := by
    intro n c r h
    obtain ⟨c', ds, h', h1, _⟩ := int_number n
    rw [h] at h'
    cases h'
    exact h1
  have h1' : '1'.toNat = 49 := by decide
  have h9' : '9'.toNat = 57 := by decide
  cases x with
  | lpar =>
    cases y with
    | int n => have := num h; rw [show '('.toNat = 40 from rfl] at this; omega
    | lpar => simp [Lisp.Word.text] at h; exact .inl ⟨h.symm ▸ rfl, rfl⟩
    | _ => simp [Lisp.Word.text] at h
  | rpar =>
    cases y with
    | int n => have := num h; rw [show ')'.toNat = 41 from rfl] at this; omega
    | rpar => simp [Lisp.Word.text] at h; exact .inl ⟨h.symm ▸ rfl, rfl⟩
    | _ => simp [Lisp.Word.text] at h
  | add =>
    cases y with
    | int n => have := num h; rw [show 'a'.toNat = 97 from rfl] at this; omega
    | add => simp [Lisp.Word.text] at h; exact .inl ⟨h.symm ▸ rfl, rfl⟩
    | _ => simp [Lisp.Word.text] at h
  | int n =>
    obtain ⟨c, ds, hx, hc, _⟩ := int_number n
    rw [hx] at h
    cases y with
    | int m =>
      cases r with
      | nil => exact .inl ⟨rfl, rfl⟩
      | cons d r =>
        obtain ⟨c', ds', hy, _, hd⟩ := int_number m
        rw [hy] at h
        simp only [List.cons_append, List.cons.injEq] at h
        exact .inr ⟨⟨n, rfl⟩, d, rfl, hd d (by rw [h.2]; simp)⟩
    | lpar => simp only [Lisp.Word.text, List.cons_append, List.cons.injEq] at h; rw [← h.1, show '('.toNat = 40 from rfl] at hc; omega
    | rpar => simp only [Lisp.Word.text, List.cons_append, List.cons.injEq] at h; rw [← h.1, show ')'.toNat = 41 from rfl] at hc; omega
    | add => simp only [Lisp.Word.text, List.cons_append, List.cons.injEq] at h; rw [← h.1, show 'a'.toNat = 97 from rfl] at hc; omega

/-- What can be extended to a word: a word, or the beginning of `add`. -/
theorem viable_iff {w : Str} : Viable lispDefs w ↔ (∃ x : Lisp.Word, w = x.text) ∨ w ∈ [[], ['a'], ['a', 'd']] := by
  unfold Viable
  simp only [matches_word]
  constructor
  · rintro ⟨v, x, h⟩
    cases x with
    | lpar =>
      rcases w with _ | ⟨c, w⟩
      · right; simp
      · simp only [Lisp.Word.text, List.cons_append, List.cons.injEq, List.append_eq_nil_iff] at h
        exact .inl ⟨.lpar, by rw [h.1, h.2.1]; rfl⟩
    | rpar =>
      rcases w with _ | ⟨c, w⟩
      · right; simp
      · simp only [Lisp.Word.text, List.cons_append, List.cons.injEq, List.append_eq_nil_iff] at h
        exact .inl ⟨.rpar, by rw [h.1, h.2.1]; rfl⟩
    | add =>
      rcases w with _ | ⟨c, _ | ⟨d, _ | ⟨e, w⟩⟩⟩
      · right; simp
      · simp only [Lisp.Word.text, List.cons_append, List.cons.injEq, List.append_eq_nil_iff] at h
        right; simp [h.1]
      · simp only [Lisp.Word.text, List.cons_append, List.cons.injEq, List.append_eq_nil_iff] at h
        right; simp [h.1, h.2.1]
      · simp only [Lisp.Word.text, List.cons_append, List.cons.injEq, List.append_eq_nil_iff] at h
        exact .inl ⟨.add, by rw [h.1, h.2.1, h.2.2.1, h.2.2.2.1]; rfl⟩
    | int n =>
      rcases w with _ | ⟨c, w⟩
      · right; simp
      · left
        obtain ⟨c', ds, h1, h2, h3⟩ := int_number n
        rw [h1] at h
        simp only [List.cons_append, List.cons.injEq] at h
        obtain ⟨m, hm⟩ := number_iff.mp (⟨c, w, rfl, h.1 ▸ h2, fun d hd => h3 d (by rw [← h.2]; simp [hd])⟩ : Number (c :: w))
        exact ⟨.int m, hm⟩
  · rintro (⟨x, rfl⟩ | h)
    · exact ⟨[], x, by simp⟩
    · simp only [List.mem_cons, List.not_mem_nil, or_false] at h
      rcases h with rfl | rfl | rfl
      · exact ⟨_, .add, rfl⟩
      · exact ⟨['d', 'd'], .add, rfl⟩
      · exact ⟨['d'], .add, rfl⟩

/-- The beginning of `add` is not a word, and no word begins it. -/
theorem tail_noMatch {tail : Str} (ht : tail ∈ [[], ['a'], ['a', 'd']]) {x : Lisp.Word} {r : Str} : tail ≠ x.text ++ r := by
  intro h
  have h1' : '1'.toNat = 49 := by decide
  have h9' : '9'.toNat = 57 := by decide
  simp only [List.mem_cons, List.not_mem_nil, or_false] at ht
  cases x with
  | int n =>
    obtain ⟨c, ds, h1, h2, h3⟩ := int_number n
    rw [h1] at h
    rcases ht with rfl | rfl | rfl <;> simp only [List.cons_append, List.cons.injEq, reduceCtorEq] at h
    all_goals rw [← h.1, show 'a'.toNat = 97 from rfl] at h2; omega
  | _ => rcases ht with rfl | rfl | rfl <;> simp [Lisp.Word.text] at h

theorem noMatch_iff {input : Str} : NoMatch lispDefs input ↔ ∀ (x : Lisp.Word) (r : Str), input ≠ x.text ++ r := by
  constructor
  · rintro h x r rfl
    obtain ⟨p, hp, hm⟩ := matches_word.mpr ⟨x, rfl⟩
    exact h x.text (text_ne_nil x) ⟨r, rfl⟩ p hp hm
  · rintro h v _ ⟨r, rfl⟩ p hp hm
    obtain ⟨x, rfl⟩ := matches_word.mp ⟨p, hp, hm⟩
    exact h x r rfl

/-- The longest word at the beginning. -/
theorem longest_iff {x : Lisp.Word} {rest : Str} :
    LongestMatch lispDefs (x.text ++ rest) x.text ↔ ∀ n, x = .int n → ∀ c, rest.head? = some c → ¬ Lisp.Digit c := by
  constructor
  · rintro ⟨_, _, _, h⟩ n rfl c hc hd
    cases rest with
    | nil => cases hc
    | cons c' rest =>
      cases hc
      have hnum : Number ((Lisp.Word.int n).text ++ [c]) := by
        obtain ⟨a, ds, h1, h2, h3⟩ := int_number n
        rw [h1]
        refine ⟨a, ds ++ [c], rfl, h2, ?_⟩
        intro d hd'
        simp only [List.mem_append, List.mem_singleton] at hd'
        rcases hd' with hd' | rfl
        · exact h3 d hd'
        · exact hd
      obtain ⟨m, hm⟩ := number_iff.mp hnum
      obtain ⟨p, hp, hmm⟩ := matches_word.mpr ⟨.int m, hm⟩
      exact h _ ⟨rest, by simp⟩ (by simp) p hp hmm
  · intro h
    refine ⟨text_ne_nil x, ⟨rest, rfl⟩, matches_word.mpr ⟨x, rfl⟩, ?_⟩
    rintro v ⟨r, hr⟩ hl p hp hm
    obtain ⟨y, rfl⟩ := matches_word.mp ⟨p, hp, hm⟩
    obtain ⟨u, hu⟩ : ∃ u, y.text = x.text ++ u := by
      have hp : x.text <+: y.text :=
        List.prefix_of_prefix_length_le (⟨rest, rfl⟩ : x.text <+: x.text ++ rest) ⟨r, hr.symm⟩ (by omega)
      obtain ⟨u, hu⟩ := hp
      exact ⟨u, hu.symm⟩
    rcases text_prefix hu with ⟨rfl, _⟩ | ⟨⟨n, rfl⟩, c, hc, hd⟩
    · rw [hu] at hl; simp at hl
    · refine h n rfl c ?_ hd
      rw [hu, List.append_assoc] at hr
      rw [List.append_cancel_left hr]
      cases u with
      | nil => cases hc
      | cons a u => exact hc

theorem first_iff {x : Lisp.Word} {i : Nat} : FirstMatch lispDefs x.text i ↔ i = wordIdx x := by
  have key : ∀ {j p}, lispDefs[j]? = some p → Matches p.2 x.text → j = wordIdx x := by
    intro j p hj hm
    obtain ⟨y, rfl, h⟩ := (matches_idx hj).mp hm
    rcases text_prefix (x := x) (y := y) (r := []) (by simp [h]) with ⟨_, h⟩ | ⟨_, c, hc, _⟩
    · exact h
    · cases hc
  constructor
  · rintro ⟨⟨p, hp, hm⟩, _⟩
    exact key hp hm
  · rintro rfl
    obtain ⟨p, hp⟩ := idx_def x
    refine ⟨⟨p, hp, (matches_idx hp).mpr ⟨x, rfl, rfl⟩⟩, ?_⟩
    intro j q hj hq hm
    exact absurd (key hq hm) (by omega)

/-! ## Cutting a text -/

/-- A piece for every word. -/
def Pieced (out : List (Nat × Nat × Str)) (ws : List Lisp.Word) : Prop :=
  out.map (·.2) = ws.map fun x => (wordIdx x, x.text)

theorem scan_spaced {k : Nat} {input : Str} {out : List (Nat × Nat × Str)} (h : Scan lispDefs k input out none) :
    ∃ ws body tail, input = body ++ tail ∧ tail ∈ [[], ['a'], ['a', 'd']] ∧ Lisp.Spaced ws body ∧ Pieced out ws := by
  generalize he : (none : Option (Nat × Char)) = err at h
  induction h with
  | done => exact ⟨[], [], [], rfl, by simp, .nil, rfl⟩
  | blank hb _ _ ih =>
    obtain ⟨ws, body, tail, rfl, h2, h3, h4⟩ := ih he
    exact ⟨ws, _ :: body, tail, rfl, h2, .blank hb h3, h4⟩
  | @tok k input w i rest out err hl hf hi _ _ ih =>
    obtain ⟨x, rfl⟩ := matches_word.mp hl.2.2.1
    obtain rfl := first_iff.mp hf
    obtain ⟨ws, body, tail, rfl, h2, h3, h4⟩ := ih he
    subst hi
    refine ⟨x :: ws, x.text ++ body, tail, by simp, h2, .word (fun n hn c hc => ?_) h3, ?_⟩
    · refine longest_iff.mp hl n hn c ?_
      cases body with
      | nil => cases hc
      | cons a b => exact hc
    · unfold Pieced at h4 ⊢
      rw [List.map_cons, List.map_cons, h4]
  | @tokEnd k input w i rest hl hf hi hv =>
    obtain ⟨x, rfl⟩ := matches_word.mp hl.2.2.1
    obtain rfl := first_iff.mp hf
    subst hi
    rcases viable_iff.mp hv with ⟨y, hy⟩ | ht
    · have hr : rest = [] := by
        rcases text_prefix hy.symm with ⟨h, _⟩ | ⟨⟨n, rfl⟩, c, hc, hd⟩
        · exact h
        · exact absurd hd (longest_iff.mp hl n rfl c hc)
      subst hr
      exact ⟨[x], x.text ++ [], [], by simp, by simp, .word (by simp) .nil, rfl⟩
    · exact absurd rfl (tail_noMatch ht)
  | @cut k input hne hno hv =>
    rcases viable_iff.mp hv with ⟨y, hy⟩ | ht
    · exact absurd (show input = y.text ++ [] by simpa using hy) (noMatch_iff.mp hno y [])
    · exact ⟨[], [], input, rfl, ht, .nil, rfl⟩
  | bad => cases he

theorem blank_not_viable {c : Char} (h : Blank c) : ¬ Viable lispDefs [c] := by
  rw [viable_iff]
  have h1' : '1'.toNat = 49 := by decide
  rintro (⟨x, hx⟩ | ht)
  · cases x with
    | int n =>
      obtain ⟨a, ds, h1, h2, _⟩ := int_number n
      rw [h1] at hx
      simp only [List.cons.injEq] at hx
      rw [← hx.1] at h2
      rcases h with rfl | rfl
      · rw [show ' '.toNat = 32 from rfl] at h2; omega
      · rw [show '\n'.toNat = 10 from rfl] at h2; omega
    | _ => rcases h with rfl | rfl <;> simp [Lisp.Word.text] at hx
  · rcases h with rfl | rfl <;> simp at ht

theorem spaced_nil {ws : List Lisp.Word} (h : Lisp.Spaced ws []) : ws = [] := by
  generalize ht : ([] : Str) = t at h
  cases h with
  | nil => rfl
  | blank => cases ht
  | @word w ws t _ _ =>
    have := (List.append_eq_nil_iff.mp ht.symm).1
    exact absurd this (text_ne_nil w)

theorem spaced_scan {ws : List Lisp.Word} {body tail : Str} (h : Lisp.Spaced ws body) (ht : tail ∈ [[], ['a'], ['a', 'd']])
    (k : Nat) : ∃ out, Scan lispDefs k (body ++ tail) out none ∧ Pieced out ws := by
  induction h generalizing k with
  | nil =>
    by_cases hn : tail = []
    · subst hn; exact ⟨[], .done, rfl⟩
    · exact ⟨[], .cut hn (noMatch_iff.mpr fun x r => tail_noMatch ht) (viable_iff.mpr (.inr ht)), rfl⟩
  | blank hb _ ih =>
    obtain ⟨out, h1, h2⟩ := ih (k + 1)
    exact ⟨out, .blank hb (blank_not_viable hb) h1, h2⟩
  | @word x ws t hd hs ih =>
    have hl : LongestMatch lispDefs (x.text ++ (t ++ tail)) x.text := by
      rw [longest_iff]
      intro n hn c hc
      cases t with
      | nil =>
        simp only [List.mem_cons, List.not_mem_nil, or_false] at ht
        rcases ht with rfl | rfl | rfl <;> simp at hc
        all_goals subst hc; unfold Lisp.Digit; decide
      | cons a t => exact hd n hn c hc
    rw [List.append_assoc]
    by_cases hv : Viable lispDefs (x.text ++ (t ++ tail))
    · refine ⟨[(k, wordIdx x, x.text)], .tokEnd hl (first_iff.mpr rfl) rfl hv, ?_⟩
      have hr : t ++ tail = [] := by
        rcases viable_iff.mp hv with ⟨y, hy⟩ | ht'
        · rcases text_prefix hy.symm with ⟨h, _⟩ | ⟨⟨n, rfl⟩, c, hc, hd⟩
          · exact h
          · exact absurd hd (longest_iff.mp hl n rfl c hc)
        · exact absurd rfl (tail_noMatch ht')
      obtain ⟨rfl, _⟩ := List.append_eq_nil_iff.mp hr
      rw [spaced_nil hs]
      rfl
    · obtain ⟨out, h1, h2⟩ := ih (k + x.text.length)
      refine ⟨_, .tok hl (first_iff.mpr rfl) rfl hv h1, ?_⟩
      unfold Pieced at h2 ⊢
      rw [List.map_cons, List.map_cons, h2]

end Verif.Props
