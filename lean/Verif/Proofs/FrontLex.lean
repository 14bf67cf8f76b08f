import Verif.Spec.Syntax
import Verif.Proofs.SourceOk

/-! # The lexer of grammar files -/

namespace Verif.FrontEnd
open Verif.Spec

/-- A pattern finds the longest prefix its regex matches. -/
structure Reads (f : Str → Option Nat) (h : Hir) : Prop where
  hit : ∀ {text n}, f text = some n → n ≤ text.length ∧ Matches h (text.take n)
  max : ∀ {v} (r : Str), Matches h v → ∃ n, f (v ++ r) = some n ∧ v.length ≤ n

theorem matches_lits : ∀ {s w : Str}, Matches (.concat (s.map fun c => .lit c.toNat)) w ↔ w = s
  | [], w => matches_concat_nil
  | c :: s, w => by
    rw [List.map_cons, matches_concat_cons]
    constructor
    · rintro ⟨a, b, rfl, h1, h2⟩
      obtain ⟨d, hd, rfl⟩ := matches_lit.mp h1
      rw [char_toNat_eq.mp hd, matches_lits.mp h2]
      rfl
    · rintro rfl
      exact ⟨[c], s, rfl, matches_lit.mpr ⟨c, rfl, rfl⟩, matches_lits.mpr rfl⟩

theorem literal_iff {s : String} {w : Str} : Matches (literal s) w ↔ w = s.toList := matches_lits

theorem reads_lit (s : String) : Reads (litLen s.toList) (literal s) := by
  refine ⟨fun {text n} h => ?_, fun {v} r h => ?_⟩
  · unfold litLen at h
    split at h
    · rename_i hp
      cases h
      obtain ⟨r, rfl⟩ := List.isPrefixOf_iff_prefix.mp hp
      exact ⟨by simp, literal_iff.mpr (by simp)⟩
    · cases h
  · rw [literal_iff.mp h]
    refine ⟨_, ?_, Nat.le_refl _⟩
    unfold litLen
    rw [if_pos (List.isPrefixOf_iff_prefix.mpr ⟨r, rfl⟩)]

theorem quotedRest_ok : ∀ {s : Str} {n : Nat}, quotedRest s = some n →
    ∃ t r, s = t ++ '"' :: r ∧ Quotable t ∧ n = t.length + 1 := by
  intro s
  induction s using quotedRest.induct with
  | case1 => intro n h; simp [quotedRest] at h
  | case2 s ih =>
    intro n h
    simp only [quotedRest, Option.map_eq_some_iff] at h
    obtain ⟨m, hm, rfl⟩ := h
    obtain ⟨t, r, rfl, ht, rfl⟩ := ih hm
    exact ⟨_ :: _ :: t, r, rfl, .backslash ht, by simp⟩
  | case3 s ih =>
    intro n h
    simp only [quotedRest, Option.map_eq_some_iff] at h
    obtain ⟨m, hm, rfl⟩ := h
    obtain ⟨t, r, rfl, ht, rfl⟩ := ih hm
    exact ⟨_ :: _ :: t, r, rfl, .quote ht, by simp⟩
  | case4 s h1 h2 =>
    intro n h
    rw [quotedRest] at h
    · cases h
    · exact h1
    · exact h2
  | case5 s =>
    intro n h
    simp only [quotedRest] at h
    cases h
    exact ⟨[], s, rfl, .nil, rfl⟩
  | case6 c s h1 h2 h3 h4 ih =>
    intro n h
    rw [quotedRest] at h
    · obtain ⟨m, hm, rfl⟩ := Option.map_eq_some_iff.mp h
      obtain ⟨t, r, rfl, ht, rfl⟩ := ih hm
      refine ⟨c :: t, r, rfl, .char ?_ ?_ ht, by simp⟩
      · exact h3
      · exact h4
    all_goals assumption

theorem quotedRest_max {t : Str} (h : Quotable t) (r : Str) : quotedRest (t ++ '"' :: r) = some (t.length + 1) := by
  induction h with
  | nil => simp [quotedRest]
  | backslash _ ih => simp [quotedRest, ih]
  | quote _ ih => simp [quotedRest, ih]
  | char h1 h2 _ ih =>
    rw [List.cons_append, quotedRest]
    · simp [ih]
    all_goals simp_all

theorem reads_quoted : Reads quotedLen GrammarFile.quoted := by
  refine ⟨fun {text n} h => ?_, fun {v} r h => ?_⟩
  · unfold quotedLen at h
    split at h
    · obtain ⟨m, hm, rfl⟩ := Option.map_eq_some_iff.mp h
      obtain ⟨t, r, rfl, ht, rfl⟩ := quotedRest_ok hm
      refine ⟨by simp, quoted_iff.mpr ⟨t, ht, ?_⟩⟩
      rw [List.take_succ_cons, List.take_append, List.take_of_length_le (by omega)]
      simp
    · cases h
  · obtain ⟨t, ht, rfl⟩ := quoted_iff.mp h
    refine ⟨t.length + 2, ?_, by simp⟩
    simp [quotedLen, quotedRest_max ht r]

theorem codeRest_ok : ∀ {s : Str} {n : Nat}, codeRest s = some n →
    ∃ t r, s = t ++ ')' :: r ∧ '\n' ∉ t ∧ n = t.length + 1 := by
  intro s
  induction s with
  | nil => intro n h; simp [codeRest] at h
  | cons c s ih =>
    intro n h
    by_cases hc : c = '\n'
    · subst hc; simp [codeRest] at h
    · rw [codeRest] at h
      · cases hs : codeRest s with
        | some m =>
          rw [hs] at h
          cases h
          obtain ⟨t, r, rfl, ht, rfl⟩ := ih hs
          exact ⟨c :: t, r, rfl, by simp_all; exact fun h => hc h.symm, by simp⟩
        | none =>
          rw [hs] at h
          simp only at h
          split at h
          · rename_i hc'
            cases h
            exact ⟨[], s, by rw [hc']; rfl, by simp, rfl⟩
          · cases h
      · exact hc

theorem codeRest_max : ∀ {t : Str} (_ : '\n' ∉ t) (r : Str), ∃ n, codeRest (t ++ ')' :: r) = some n ∧ t.length + 1 ≤ n
  | [], _, r => by
    rw [List.nil_append, codeRest]
    · cases h : codeRest r with
      | some m => exact ⟨m + 1, rfl, by simp⟩
      | none => exact ⟨1, rfl, by simp⟩
    · decide
  | c :: t, h, r => by
    obtain ⟨n, hn, hl⟩ := codeRest_max (t := t) (by simp_all) r
    refine ⟨n + 1, ?_, by simp; omega⟩
    rw [List.cons_append, codeRest, hn]
    simp at h
    exact fun h' => h.1 h'.symm

theorem reads_code : Reads codeLen GrammarFile.tsCode := by
  refine ⟨fun {text n} h => ?_, fun {v} r h => ?_⟩
  · unfold codeLen at h
    split at h
    · obtain ⟨m, hm, rfl⟩ := Option.map_eq_some_iff.mp h
      obtain ⟨t, r, rfl, ht, rfl⟩ := codeRest_ok hm
      refine ⟨by simp, tsCode_iff.mpr ⟨t, ht, ?_⟩⟩
      rw [List.take_succ_cons, List.take_append, List.take_of_length_le (by omega)]
      simp
    · cases h
  · obtain ⟨t, ht, rfl⟩ := tsCode_iff.mp h
    obtain ⟨n, hn, hl⟩ := codeRest_max ht r
    refine ⟨n + 1, ?_, by simp; omega⟩
    simp [codeLen, hn]

theorem identStart_iff {c : Char} : isIdentStart c = true ↔
    ∃ r ∈ [(65, 90), (95, 95), (97, 122)], r.1 ≤ c.toNat ∧ c.toNat ≤ r.2 := by
  have e : c = '_' ↔ c.toNat = 95 := (char_toNat_eq (d := '_')).symm
  simp only [isIdentStart, Bool.or_eq_true, Bool.and_eq_true, decide_eq_true_eq, beq_iff_eq, e, List.mem_cons,
    List.not_mem_nil, or_false, exists_eq_or_imp, exists_eq_left]
  omega

theorem identChar_iff {c : Char} : isIdentChar c = true ↔
    ∃ r ∈ [(48, 57), (65, 90), (95, 95), (97, 122)], r.1 ≤ c.toNat ∧ c.toNat ≤ r.2 := by
  simp only [isIdentChar, Bool.or_eq_true, identStart_iff, Bool.and_eq_true, decide_eq_true_eq, List.mem_cons,
    List.not_mem_nil, or_false, exists_eq_or_imp, exists_eq_left]
  omega

theorem star_ident {h : Hir} {w : List Char} (hm : Matches h w)
    (hh : h = .rep .zeroOrMore (.cls [(48, 57), (65, 90), (95, 95), (97, 122)])) : ∀ c ∈ w, isIdentChar c = true := by
  induction hm with
  | starNil => simp
  | @starCons h' w₁ w₂ h1 h2 _ ih =>
    cases hh
    obtain ⟨c, rfl, hr⟩ := matches_cls.mp h1
    intro x hx
    rcases List.mem_append.mp hx with hx | hx
    · rw [List.mem_singleton.mp hx]; exact identChar_iff.mpr hr
    · exact ih rfl x hx
  | _ => cases hh

theorem ident_star : ∀ {w : List Char}, (∀ c ∈ w, isIdentChar c = true) →
    Matches (.rep .zeroOrMore (.cls [(48, 57), (65, 90), (95, 95), (97, 122)])) w
  | [], _ => .starNil
  | c :: w, h => .starCons (w₁ := [c]) (matches_cls.mpr ⟨c, rfl, identChar_iff.mp (h c (by simp))⟩)
      (ident_star fun x hx => h x (by simp [hx]))

theorem ident_iff {w : Str} : Matches GrammarFile.ident w ↔
    ∃ c s, w = c :: s ∧ isIdentStart c = true ∧ ∀ x ∈ s, isIdentChar x = true := by
  unfold GrammarFile.ident
  simp only [matches_concat_cons, matches_concat_nil]
  constructor
  · rintro ⟨a, b, rfl, h1, x, y, rfl, h2, rfl⟩
    obtain ⟨c, rfl, hc⟩ := matches_cls.mp h1
    exact ⟨c, x, by simp, identStart_iff.mpr hc, star_ident h2 rfl⟩
  · rintro ⟨c, s, rfl, h1, h2⟩
    exact ⟨[c], s, rfl, matches_cls.mpr ⟨c, rfl, identStart_iff.mp h1⟩, s, [], by simp, ident_star h2, rfl⟩

theorem takeWhile_append_le {p : Char → Bool} : ∀ {a : Str} (b : Str), (∀ x ∈ a, p x = true) →
    a.length ≤ ((a ++ b).takeWhile p).length
  | [], _, _ => by simp
  | c :: a, b, h => by
    rw [List.cons_append, List.takeWhile_cons_of_pos (h c (by simp))]
    simp
    exact takeWhile_append_le b fun x hx => h x (by simp [hx])

theorem take_takeWhile {p : Char → Bool} : ∀ s : Str, s.take (s.takeWhile p).length = s.takeWhile p
  | [] => rfl
  | c :: s => by
    cases h : p c with
    | true => rw [List.takeWhile_cons_of_pos h]; simp [take_takeWhile s]
    | false => rw [List.takeWhile_cons_of_neg (by simp [h])]; rfl

theorem length_takeWhile_le {p : Char → Bool} (s : Str) : (s.takeWhile p).length ≤ s.length :=
  (List.takeWhile_prefix p).length_le

theorem reads_ident : Reads identLen GrammarFile.ident := by
  refine ⟨fun {text n} h => ?_, fun {v} r h => ?_⟩
  · cases text with
    | nil => simp [identLen] at h
    | cons c s =>
      simp only [identLen] at h
      split at h
      · rename_i hc
        cases h
        have := length_takeWhile_le (p := isIdentChar) s
        refine ⟨by simp; omega, ident_iff.mpr ⟨c, s.takeWhile isIdentChar, ?_, hc, ?_⟩⟩
        · simp [take_takeWhile]
        · exact fun x hx => List.all_eq_true.mp List.all_takeWhile x hx
      · cases h
  · obtain ⟨c, s, rfl, h1, h2⟩ := ident_iff.mp h
    refine ⟨_, by simp only [List.cons_append, identLen, h1, if_true]; rfl, ?_⟩
    have := takeWhile_append_le r h2
    simp; exact this

/-! ## The table of terminals -/

theorem table_of_terminal {i : Nat} {t : (Str → Tok) × Hir} (h : terminals[i]? = some t) :
    ∃ f, patterns[i]? = some (some t.1, f) ∧ Reads f t.2 := by
  match i, h with
  | 0, h => cases h; exact ⟨_, rfl, reads_quoted⟩
  | 1, h => cases h; exact ⟨_, rfl, reads_code⟩
  | 2, h => cases h; exact ⟨_, rfl, reads_ident⟩
  | 3, h => cases h; exact ⟨_, rfl, reads_lit _⟩
  | 4, h => cases h; exact ⟨_, rfl, reads_lit _⟩
  | 5, h => cases h; exact ⟨_, rfl, reads_lit _⟩
  | 6, h => cases h; exact ⟨_, rfl, reads_lit _⟩
  | 7, h => cases h; exact ⟨_, rfl, reads_lit _⟩
  | 8, h => cases h; exact ⟨_, rfl, reads_lit _⟩
  | 9, h => cases h; exact ⟨_, rfl, reads_lit _⟩
  | 10, h => cases h; exact ⟨_, rfl, reads_lit _⟩
  | 11, h => cases h; exact ⟨_, rfl, reads_lit _⟩
  | 12, h => cases h; exact ⟨_, rfl, reads_lit _⟩
  | 13, h => cases h; exact ⟨_, rfl, reads_lit _⟩
  | _ + 14, h => cases h

theorem terminal_of_table {i : Nat} {o : Option (Str → Tok)} {f : Str → Option Nat}
    (h : patterns[i]? = some (o, f)) :
    (∃ mk h, o = some mk ∧ terminals[i]? = some (mk, h) ∧ Reads f h) ∨ (i = 14 ∧ o = none ∧ f = spaceLen) := by
  by_cases hi : i < 14
  · have ht : terminals[i]? = some (terminals[i]'hi) := List.getElem?_eq_getElem hi
    obtain ⟨f', h1, h2⟩ := table_of_terminal ht
    rw [h1] at h
    cases h
    exact .inl ⟨_, _, rfl, ht, h2⟩
  · right
    match i, hi, h with
    | 14, _, h => cases h; exact ⟨rfl, rfl, rfl⟩
    | _ + 15, _, h => cases h
    | 0, hi, _ | 1, hi, _ | 2, hi, _ | 3, hi, _ | 4, hi, _ | 5, hi, _ | 6, hi, _ | 7, hi, _ | 8, hi, _ | 9, hi, _
    | 10, hi, _ | 11, hi, _ | 12, hi, _ | 13, hi, _ => exact absurd (by decide) hi

theorem white_iff {c : Char} : isSpace c = true ↔ White c := by
  simp only [isSpace, White, Bool.or_eq_true, Bool.and_eq_true, decide_eq_true_eq, beq_iff_eq, List.mem_cons,
    List.not_mem_nil, or_false]
  omega

theorem not_white {c : Char} (h : 33 ≤ c.toNat ∧ c.toNat ≤ 126) : ¬ White c := by
  simp only [White, List.mem_cons, List.not_mem_nil, or_false]
  omega

/-- No terminal matches the empty text or text that begins with white space. -/
theorem terminal_head {t : (Str → Tok) × Hir} (ht : t ∈ terminals) {w : Str} (h : Matches t.2 w) :
    ∃ c s, w = c :: s ∧ ¬ White c := by
  have lits : ∀ {s : String} {c : Char} {r : Str}, Matches (literal s) w → s.toList = c :: r →
      33 ≤ c.toNat ∧ c.toNat ≤ 126 → ∃ c s, w = c :: s ∧ ¬ White c := by
    intro s c r h1 h2 h3
    exact ⟨c, r, by rw [literal_iff.mp h1, h2], not_white h3⟩
  simp only [terminals, List.mem_cons, List.not_mem_nil, or_false] at ht
  rcases ht with rfl | rfl | rfl | rfl | rfl | rfl | rfl | rfl | rfl | rfl | rfl | rfl | rfl | rfl
  · obtain ⟨t, _, rfl⟩ := quoted_iff.mp h
    exact ⟨_, _, rfl, not_white (by decide)⟩
  · obtain ⟨t, _, rfl⟩ := tsCode_iff.mp h
    exact ⟨_, _, rfl, not_white (by decide)⟩
  · obtain ⟨c, s, rfl, hc, _⟩ := ident_iff.mp h
    obtain ⟨r, hr, h1, h2⟩ := identStart_iff.mp hc
    refine ⟨c, s, rfl, not_white ?_⟩
    simp only [List.mem_cons, List.not_mem_nil, or_false] at hr
    rcases hr with rfl | rfl | rfl <;> simp at h1 h2 <;> omega
  all_goals exact lits h rfl (by decide)

/-! ## The choice of a pattern -/

/-- `best` is the longest match of the patterns, the last of several. -/
def Best {α : Type} (text : Str) (qs : List (α × (Str → Option Nat))) : Option (α × Nat) → Prop
  | none => ∀ (j : Nat) p, qs[j]? = some p → p.2 text = none
  | some (a, n) => ∃ (i : Nat) (f : Str → Option Nat), qs[i]? = some (a, f) ∧ f text = some n ∧
      ∀ (j : Nat) p m, qs[j]? = some p → p.2 text = some m → m ≤ n ∧ (i < j → m < n)

theorem best_step {α : Type} {text : Str} {qs : List (α × (Str → Option Nat))} {best : Option (α × Nat)}
    (h : Best text qs best) (p : α × (Str → Option Nat)) :
    Best text (qs ++ [p]) (match p.2 text with
      | none => best
      | some n => if (best.map Prod.snd).getD 0 ≤ n then some (p.1, n) else best) := by
  have last : ∀ (j : Nat) q, (qs ++ [p])[j]? = some q → qs[j]? = some q ∨ j = qs.length ∧ q = p := by
    intro j q hj
    by_cases hl : j < qs.length
    · rw [List.getElem?_append_left hl] at hj; exact .inl hj
    · rw [List.getElem?_append_right (by omega)] at hj
      match hk : j - qs.length, hj with
      | 0, hj => cases hj; exact .inr ⟨by omega, rfl⟩
  have old : ∀ (j : Nat) q, qs[j]? = some q → (qs ++ [p])[j]? = some q := by
    intro j q hj
    rw [List.getElem?_append_left (List.getElem?_eq_some_iff.mp hj).1]; exact hj
  cases hp : p.2 text with
  | none =>
    cases best with
    | none =>
      intro j q hj
      rcases last j q hj with hj | ⟨_, rfl⟩
      · exact h j q hj
      · exact hp
    | some b =>
      obtain ⟨i, f, h1, h2, h3⟩ := h
      refine ⟨i, f, old _ _ h1, h2, fun j q m hj hm => ?_⟩
      rcases last j q hj with hj | ⟨_, rfl⟩
      · exact h3 j q m hj hm
      · rw [hp] at hm; cases hm
  | some n =>
    simp only
    split
    · rename_i hle
      refine ⟨qs.length, p.2, by simp, hp, fun j q m hj hm => ?_⟩
      rcases last j q hj with hj | ⟨rfl, rfl⟩
      · have hlt : j < qs.length := (List.getElem?_eq_some_iff.mp hj).1
        refine ⟨?_, fun h => absurd h (by omega)⟩
        cases best with
        | none => have := h j q hj; rw [this] at hm; cases hm
        | some b =>
          obtain ⟨i, f, h1, h2, h3⟩ := h
          have := (h3 j q m hj hm).1
          simp at hle
          omega
      · rw [hp] at hm; cases hm
        exact ⟨Nat.le_refl _, fun h => absurd h (by omega)⟩
    · rename_i hle
      cases best with
      | none => simp at hle
      | some b =>
        simp at hle
        obtain ⟨i, f, h1, h2, h3⟩ := h
        refine ⟨i, f, old _ _ h1, h2, fun j q m hj hm => ?_⟩
        rcases last j q hj with hj | ⟨_, rfl⟩
        · exact h3 j q m hj hm
        · rw [hp] at hm; cases hm
          exact ⟨by omega, fun _ => hle⟩

theorem pick_best {α : Type} {text : Str} : ∀ (ps qs : List (α × (Str → Option Nat))) {best : Option (α × Nat)},
    Best text qs best → Best text (qs ++ ps) (pick text ps best)
  | [], qs, best, h => by simpa [pick] using h
  | p :: ps, qs, best, h => by
    have h' := pick_best ps _ (best_step h p)
    rw [List.append_assoc, List.singleton_append] at h'
    rw [pick]
    split at h'
    · rename_i e; rw [e]; exact h'
    · rename_i n e; rw [e]; simp only
      split
      · rename_i hc; rw [if_pos hc] at h'; exact h'
      · rename_i hc; rw [if_neg hc] at h'; exact h'

theorem pick_patterns (text : Str) : Best text patterns (pick text patterns none) :=
  pick_best patterns [] (fun j p h => by simp at h)

theorem best_unique {α : Type} {text : Str} {qs : List (α × (Str → Option Nat))} {b c : Option (α × Nat)}
    (hb : Best text qs b) (hc : Best text qs c) : b = c := by
  match b, c, hb, hc with
  | none, none, _, _ => rfl
  | none, some c, hb, hc =>
    obtain ⟨i, f, h1, h2, _⟩ := hc
    have := hb i _ h1
    rw [show f text = none from this] at h2; cases h2
  | some b, none, hb, hc =>
    obtain ⟨i, f, h1, h2, _⟩ := hb
    have := hc i _ h1
    rw [show f text = none from this] at h2; cases h2
  | some b, some c, hb, hc =>
    obtain ⟨i, f, h1, h2, h3⟩ := hb
    obtain ⟨j, g, k1, k2, k3⟩ := hc
    have a1 := h3 j _ _ k1 k2
    have a2 := k3 i _ _ h1 h2
    have e : b.2 = c.2 := by omega
    have : i = j := by
      rcases Nat.lt_trichotomy i j with h | h | h
      · have := a1.2 h; omega
      · exact h
      · have := a2.2 h; omega
    subst this
    rw [h1] at k1
    obtain ⟨b1, b2⟩ := b
    obtain ⟨c1, c2⟩ := c
    simp only [Option.some.injEq, Prod.mk.injEq] at k1 ⊢
    exact ⟨k1.1, e⟩

end Verif.FrontEnd
