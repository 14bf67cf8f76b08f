import Verif.Proofs.BarOk
import Verif.Props.Apart

/-! # Property: a blank in no range splits a text (C98) -/

namespace Verif.Props
open Verif Spec

section
variable {toks : List (TokenDef × Hir)} {lx : Lex} {ord : Nfa.Order}

theorem free_bar {al : List Match} {c : Char} (hc : Free toks c) (w u : List Char) : ¬ PViable al toks (w ++ c :: u) := by
  intro h
  rw [show w ++ c :: u = (w ++ [c]) ++ u by simp] at h
  obtain ⟨_, h⟩ := h
  exact free_not_viable hc w (reads_append h)

/-- **C98, pieces.**  A text with a blank in no range of a token: if nothing is dropped of the part up to the blank, the pieces
of the text are those of that part and those of the rest; otherwise all of the rest is dropped. -/
theorem C98_pieces (ho : Reorders ord) (h : Lex.fromTokens ord toks = .ok lx) :
    ∃ al, Overlap.removeOverlap (ofList (rangesOf toks)) = .ok al ∧ ∀ c s t, Free toks c →
      ∃ out dr out2 dr2, Munch (PToken al toks) (PViable al toks) 0 (s ++ [c]) out dr ∧ Munch (PToken al toks) (PViable al toks) 0 t out2 dr2 ∧
        (dr = [] → Munch (PToken al toks) (PViable al toks) 0 (s ++ c :: t) (out ++ out2.map fun p => (p.1 + (s.length + 1), p.2)) dr2) ∧
        (dr ≠ [] → Munch (PToken al toks) (PViable al toks) 0 (s ++ c :: t) out (dr ++ t)) := by
  obtain ⟨al, hal, _⟩ := C10_exact ho h
  refine ⟨al, hal, fun c s t hc => ?_⟩
  obtain ⟨out, dr, h1⟩ := munch_all ho h hal 0 (s ++ [c])
  obtain ⟨out2, dr2, h2⟩ := munch_all ho h hal 0 t
  obtain ⟨k1, k2⟩ := Lex.munch_bar (T := PToken al toks) (V := PViable al toks) (fun _ _ => pviable_of_token) (fun _ _ => free_bar hc _ _) h1 (s := s) (t := t) rfl
  exact ⟨out, dr, out2, dr2, h1, h2, fun e => k1 e (by have := Lex.munch_shift h2 (s.length + 1); simpa [Nat.add_assoc] using this), k2⟩

/-- **C98, the tokens** of an ASCII text with such a blank: those of the part up to the blank and those of the rest, or, if some of the part
up to the blank is dropped, the tokens of that part whatever the rest. -/
theorem C98_tokens (ho : Reorders ord) (h : Lex.fromTokens ord toks = .ok lx) {c : Char} (hc : Free toks c) {s : Str}
    (hs : ∀ d ∈ s, d.toNat < 128) :
    ∃ a al out dr, lx.lex (s ++ [c]) = .ok a ∧ Overlap.removeOverlap (ofList (rangesOf toks)) = .ok al ∧
      Munch (PToken al toks) (PViable al toks) 0 (s ++ [c]) out dr ∧
      ∀ t : Str, (∀ d ∈ t, d.toNat < 128) → ∃ b, lx.lex t = .ok b ∧
        lx.lex (s ++ c :: t) = .ok (if dr = [] then a ++ b else a) := by
  obtain ⟨al, hal, hsplit⟩ := C98_pieces ho h
  obtain ⟨out, dr, _, _, h1, _⟩ := hsplit c s [] hc
  have hsc : ∀ d ∈ s ++ [c], d.toNat < 128 := by
    intro d hd
    rcases List.mem_append.mp hd with hd | hd
    · exact hs d hd
    · obtain rfl := List.mem_singleton.mp hd; exact free_ascii hc
  refine ⟨_, al, out, dr, lex_ascii ho h hal hsc h1, hal, h1, fun t ht => ?_⟩
  obtain ⟨out', dr', out2, dr2, h1', h2, h3, h4⟩ := hsplit c s t hc
  obtain ⟨rfl, rfl⟩ := Lex.pmunch_unique h1 h1'
  have hall : ∀ d ∈ s ++ c :: t, d.toNat < 128 := by
    intro d hd
    rw [show s ++ c :: t = (s ++ [c]) ++ t by simp] at hd
    rcases List.mem_append.mp hd with hd | hd
    · exact hsc d hd
    · exact ht d hd
  refine ⟨_, lex_ascii ho h hal ht h2, ?_⟩
  by_cases hd : dr' = []
  · rw [lex_ascii ho h hal hall (h3 hd), if_pos hd, List.map_append, List.map_map]
    rfl
  · rw [lex_ascii ho h hal hall (h4 hd), if_neg hd]

/-- **C98, lines.**  Parts of ASCII characters, each ended by such a blank and nothing of it dropped: the tokens of all of them together
are the tokens of each, one after the other. -/
theorem C98_lines (ho : Reorders ord) (h : Lex.fromTokens ord toks = .ok lx) {c : Char} (hc : Free toks c) {parts : List Str}
    (hp : ∀ s ∈ parts, (∀ d ∈ s, d.toNat < 128) ∧ ∃ al out, Overlap.removeOverlap (ofList (rangesOf toks)) = .ok al ∧
      Munch (PToken al toks) (PViable al toks) 0 (s ++ [c]) out []) :
    ∃ tss, List.Forall₂ (fun s ts => lx.lex (s ++ [c]) = .ok ts) parts tss ∧ lx.lex (parts.flatMap (· ++ [c])) = .ok tss.flatten := by
  induction parts with
  | nil =>
    obtain ⟨al, hal, hex⟩ := C10_exact ho h
    exact ⟨[], .nil, lex_ascii ho h hal (by simp) .done⟩
  | cons s parts ih =>
    obtain ⟨tss, h1, h2⟩ := ih fun s hs => hp s (by simp [hs])
    obtain ⟨hs, al, out, hal, hm⟩ := hp s (by simp)
    obtain ⟨a, al', out', dr, h3, hal', h4, h5⟩ := C98_tokens ho h hc hs
    rw [hal] at hal'; cases hal'
    obtain ⟨rfl, rfl⟩ := Lex.pmunch_unique hm h4
    obtain ⟨b, h6, h7⟩ := h5 (parts.flatMap (· ++ [c])) (by
      intro d hd
      obtain ⟨u, hu, hd⟩ := List.mem_flatMap.mp hd
      rcases List.mem_append.mp hd with hd | hd
      · exact (hp u (by simp [hu])).1 d hd
      · obtain rfl := List.mem_singleton.mp hd; exact free_ascii hc)
    rw [h2] at h6; cases h6
    refine ⟨a :: tss, .cons h3 h1, ?_⟩
    simpa using h7

/-- **C98, the generated lexer**, on supported characters: tokens one after the other; an invalid character in the first part is reported
whatever the rest, one in the rest at its place in the whole text. -/
theorem C98_ts (ho : Reorders ord) (h : Lex.fromTokens ord toks = .ok lx) {max : Nat} {c : Char} (hc : Free toks c) {s t : Str}
    (hcov : Covered max (LexGen.Tables.new lx) (s ++ c :: t)) (hsup : ∀ d ∈ s ++ c :: t, (LexGen.charCode d).isSome = true) :
    let L := fun u => Ts.lex max LexGen.charCode (LexGen.Tables.new lx) (Lex.lexFuel u) u
    (∃ a b, L (s ++ [c]) = .tokens (a ++ [some ⟨"EOF".toList, none⟩]) ∧ L t = .tokens (b ++ [some ⟨"EOF".toList, none⟩]) ∧
        L (s ++ c :: t) = .tokens (a ++ b ++ [some ⟨"EOF".toList, none⟩])) ∨
    (∃ a d i, L (s ++ [c]) = .tokens a ∧ L t = .invalidSymbol d (some i) ∧ L (s ++ c :: t) = .invalidSymbol d (some (i + (s.length + 1)))) ∨
    (∃ d i, L (s ++ [c]) = .invalidSymbol d (some i) ∧ L (s ++ c :: t) = .invalidSymbol d (some i)) := by
  intro L
  have e : s ++ c :: t = (s ++ [c]) ++ t := by simp
  have hlen : (s ++ [c]).length ≤ max ∧ t.length ≤ max := by
    have := hcov.input; rw [e, List.length_append] at this; omega
  obtain ⟨al, out, er, hal, h1, _, _, h2⟩ := C36_exact ho h (input := s ++ [c]) ⟨hcov.chars, hlen.1, hcov.fan, hcov.lows⟩
    (fun d hd => hsup d (by rw [e]; exact List.mem_append_left _ hd))
  obtain ⟨al', out2, er2, hal', h3, _, _, h4⟩ := C36_exact ho h (input := t) ⟨hcov.chars, hlen.2, hcov.fan, hcov.lows⟩
    (fun d hd => hsup d (by rw [e]; exact List.mem_append_right _ hd))
  rw [hal] at hal'; cases hal'
  obtain ⟨al', out3, er3, hal', _, hu, _, h6⟩ := C36_exact ho h hcov hsup
  rw [hal] at hal'; cases hal'
  obtain ⟨k1, k2⟩ := Lex.munchErr_bar (T := PToken al toks) (V := PViable al toks) (fun _ _ => pviable_of_token) (fun _ _ => free_bar hc _ _) h1 (s := s) (t := t) rfl
  have hsh := Lex.munchErr_shift h3 (s.length + 1)
  rw [← Nat.add_assoc] at hsh
  cases er with
  | some p =>
    obtain ⟨rfl, rfl⟩ := hu _ _ (k2 (by simp))
    obtain ⟨i, d⟩ := p
    exact .inr (.inr ⟨d, i, h2, h6⟩)
  | none =>
    obtain ⟨rfl, rfl⟩ := hu _ _ (k1 rfl hsh)
    cases er2 with
    | some p =>
      obtain ⟨i, d⟩ := p
      exact .inr (.inl ⟨_, d, i, h2, h4, h6⟩)
    | none =>
      refine .inl ⟨_, _, h2, h4, ?_⟩
      show Ts.lex _ _ _ _ _ = _
      rw [h6]
      simp only [Option.map_none, List.map_append, List.map_map]
      rfl

theorem munch_dropped_mem {T : List Char → Nat → Prop} {V : List Char → Prop} {k input out dr} (h : Munch T V k input out dr) :
    ∀ d ∈ dr, d ∈ input := by
  induction h with
  | done => simp
  | blank _ _ _ ih => exact fun d hd => List.mem_cons_of_mem _ (ih d hd)
  | tok _ h3 _ _ ih => exact fun d hd => h3 ▸ List.mem_append_right _ (ih d hd)
  | tokEnd _ h3 _ => exact fun d hd => h3 ▸ List.mem_append_right _ hd
  | stop => exact fun d hd => hd

/-- **C92, the back, exactly.**  A blank that is part of no token, written after an ASCII text, brings out the tokens of what is dropped
without it, with the blank after it; so it changes nothing just when these are none. -/
theorem C92_exact (ho : Reorders ord) (h : Lex.fromTokens ord toks = .ok lx) :
    ∃ al, Overlap.removeOverlap (ofList (rangesOf toks)) = .ok al ∧
      ∀ c (input : Str), Blank c → (∀ w, ¬ PViable al toks (w ++ [c])) → (∀ d ∈ input, d.toNat < 128) →
        ∃ out dr a b, Munch (PToken al toks) (PViable al toks) 0 input out dr ∧ lx.lex input = .ok a ∧ lx.lex (dr ++ [c]) = .ok b ∧
          lx.lex (input ++ [c]) = .ok (a ++ b) ∧ (lx.lex (input ++ [c]) = lx.lex input ↔ b = []) := by
  obtain ⟨al, hal, _⟩ := C10_exact ho h
  refine ⟨al, hal, fun c input hb hc hasc => ?_⟩
  obtain ⟨out, dr, h1⟩ := munch_all ho h hal 0 input
  obtain ⟨e, d, h2⟩ := munch_all ho h hal 0 (dr ++ [c])
  obtain ⟨_, h3⟩ := Lex.munch_snoc_rest (T := PToken al toks) (V := PViable al toks) (fun _ _ => pviable_of_token) hc h1
  have h4 := h3 (by have := Lex.munch_shift h2 (input.length - dr.length); simpa using this)
  have hcc : c.toNat < 128 := by rcases hb with rfl | rfl <;> decide
  have hsnoc : ∀ {l : Str}, (∀ d ∈ l, d.toNat < 128) → ∀ d ∈ l ++ [c], d.toNat < 128 := by
    intro l hl d hd
    rcases List.mem_append.mp hd with hd | hd
    · exact hl d hd
    · obtain rfl := List.mem_singleton.mp hd; exact hcc
  have hdr : ∀ d ∈ dr, d.toNat < 128 := fun d hd => hasc d (munch_dropped_mem h1 d hd)
  have e1 := lex_ascii ho h hal hasc h1
  have e2 := lex_ascii ho h hal (hsnoc hdr) h2
  have e3 := lex_ascii ho h hal (hsnoc hasc) h4
  rw [List.map_append, List.map_map] at e3
  refine ⟨out, dr, _, _, h1, e1, e2, e3, ?_⟩
  rw [e3, e1]
  constructor
  · intro h
    have := congrArg List.length (Except.ok.inj h)
    rw [← List.length_eq_zero_iff]
    simp at this ⊢
    exact this
  · intro h
    rw [List.map_eq_nil_iff] at h
    subst h
    simp

end

-- C98 and C92: two lines of the tokens of C95, the blanks free, each line with its tokens and both together.
example : ∃ lx, Lex.fromTokens (fun _ l => l) sampleToks = .ok lx ∧ Reorders (fun _ l => l) ∧ Free sampleToks '\n' ∧
    (∀ d ∈ "if a".toList, d.toNat < 128) ∧ (∀ d ∈ "ifs".toList, d.toNat < 128) ∧
    lx.lex "if a\n".toList = .ok [⟨"if".toList, none⟩, ⟨"ident".toList, some "a".toList⟩] ∧
    lx.lex "ifs".toList = .ok [⟨"ident".toList, some "ifs".toList⟩] ∧
    lx.lex "if a\nifs".toList = .ok [⟨"if".toList, none⟩, ⟨"ident".toList, some "a".toList⟩, ⟨"ident".toList, some "ifs".toList⟩] ∧
    Covered 5000 (LexGen.Tables.new lx) "if a\nifs".toList ∧ (∀ c ∈ "if a\nifs".toList, (LexGen.charCode c).isSome = true) ∧
    ∃ al out, Overlap.removeOverlap (ofList (rangesOf sampleToks)) = .ok al ∧
      Munch (PToken al sampleToks) (PViable al sampleToks) 0 ("if\n".toList) out [] := by
  refine ⟨_, rfl, reorders_id, sample_free (.inr rfl), by decide, by decide, by rfl, by rfl, by rfl, by decide +kernel,
    by rw [charCode_fun]; decide +kernel, ?_⟩
  obtain ⟨al, hal, _, h1⟩ := C11_exact (ord := fun _ l => l) (toks := sampleToks) reorders_id rfl
  have hif : PToken al sampleToks "if".toList 0 := ((h1 sample_atoms).1 _ _ (by simp)).mpr
    ⟨⟨_, rfl, .concatCons (w₁ := ['i']) (.lit rfl) (.concatCons (w₁ := ['f']) (w₂ := []) (.lit rfl) .concatNil)⟩, by simp⟩
  obtain ⟨out, h2, _⟩ := apart_munch sampleToks al (is := [0]) (ws := ["if".toList]) (s := "if\n".toList) (.cons ⟨by simp, hif⟩ .nil)
    (.word (w := "if".toList) (sample_free (.inr rfl)) .nil)
  exact ⟨al, out, hal, h2⟩

-- C92: what is dropped of `ab` with the tokens `a`, `abc`, `b`, and what it is with a line break after it.
example : ∃ lx, Lex.fromTokens (fun _ l => l) dropToks = .ok lx ∧ Overlap.removeOverlap (ofList (rangesOf dropToks)) = .ok dropPieces ∧
    (∀ w, ¬ PViable dropPieces dropToks (w ++ ['\n'])) ∧ lx.lex "ab".toList = .ok [⟨"a".toList, none⟩] ∧
    lx.lex "b\n".toList = .ok [⟨"b".toList, none⟩] ∧ lx.lex "ab\n".toList = .ok [⟨"a".toList, none⟩, ⟨"b".toList, none⟩] :=
  ⟨_, rfl, rfl, drop_blank _ (.inr rfl), by rfl, by rfl, by rfl⟩

end Verif.Props
