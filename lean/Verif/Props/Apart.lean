import Verif.Proofs.ApartOk
import Verif.Props.Ends
import Verif.Props.TsExact

/-! # Property: words written apart are read as they are (C95) -/

namespace Verif.Props
open Verif Spec

section
variable {toks : List (TokenDef × Hir)} {lx : Lex} {ord : Nfa.Order}

theorem free_ascii {c : Char} (h : Free toks c) : c.toNat < 128 := by
  rcases h.1 with rfl | rfl <;> decide

theorem tokens_of_pieces {out : List (Nat × Nat × List Char)} {l : List (Nat × List Char)} (h : out.map Prod.snd = l) :
    out.map (tokenOf toks) = l.map fun p => tokenOf toks (0, p) := by
  subst h
  rw [List.map_map]
  rfl

/-- The tokens of a text of ASCII characters are its pieces. -/
theorem lex_ascii (ho : Reorders ord) (h : Lex.fromTokens ord toks = .ok lx) {al : List Match}
    (hal : Overlap.removeOverlap (ofList (rangesOf toks)) = .ok al) {s : Str} (ha : ∀ c ∈ s, c.toNat < 128) {out dr}
    (hm : Munch (PToken al toks) (PViable al toks) 0 s out dr) : lx.lex s = .ok (out.map (tokenOf toks)) := by
  obtain ⟨al1, hal1, hex⟩ := C10_exact ho h
  rw [hal] at hal1; cases hal1
  obtain ⟨al2, hal2, hs, _⟩ := C11_exact ho h
  rw [hal] at hal2; cases hal2
  obtain ⟨out', dr', _, hu, hc, _⟩ := hex s
  obtain ⟨rfl, rfl⟩ := hu _ _ hm
  rw [hc]
  have := Lex.expected_ascii ha (Lex.munch_pieces hs hm)
  rw [Lex.mapM_iff] at this
  simpa only [Lex.expected_iff] using this

theorem apart_munch (toks : List (TokenDef × Hir)) (al : List Match) {is : List Nat} {ws : List (List Char)}
    (hw : List.Forall₂ (fun i w => w ≠ [] ∧ PToken al toks w i) is ws) {s : Str} (hs : Apart (Free toks) ws s) :
    ∃ out, Munch (PToken al toks) (PViable al toks) 0 s out [] ∧ MunchErr (PToken al toks) (PViable al toks) 0 s out none ∧
      out.map Prod.snd = is.zip ws :=
  Lex.munch_apart (T := PToken al toks) (V := PViable al toks) (fun _ _ => pviable_of_token)
    (fun w v (h : PViable al toks (w ++ v)) => let ⟨_, h⟩ := h; reads_append h) (fun _ hc => ⟨hc.1, free_not_viable hc⟩) hs hw 0

/-- **C95, pieces.**  Words that are tokens, written with blanks in no range of a token between them, are lexed as these words; when all
is ASCII the tokens are those of the words. -/
theorem C95_words (ho : Reorders ord) (h : Lex.fromTokens ord toks = .ok lx) :
    ∃ al, Overlap.removeOverlap (ofList (rangesOf toks)) = .ok al ∧
      ∀ is ws s, List.Forall₂ (fun i w => w ≠ [] ∧ PToken al toks w i) is ws → Apart (Free toks) ws s →
        (∃ out, Munch (PToken al toks) (PViable al toks) 0 s out [] ∧ out.map Prod.snd = is.zip ws) ∧
        ((∀ w ∈ ws, ∀ c ∈ w, c.toNat < 128) → lx.lex s = .ok ((is.zip ws).map fun p => tokenOf toks (0, p))) := by
  obtain ⟨al, hal, _⟩ := C10_exact ho h
  refine ⟨al, hal, fun is ws s hw hs => ?_⟩
  obtain ⟨out, h1, _, h3⟩ := apart_munch toks al hw hs
  refine ⟨⟨out, h1, h3⟩, fun ha => ?_⟩
  rw [← tokens_of_pieces h3]
  refine lex_ascii ho h hal (fun c hc => ?_) h1
  rcases hs.chars c hc with hf | ⟨w, hw, hc⟩
  · exact free_ascii hf
  · exact ha w hw c hc

/-- **C95.**  When the pieces of the alphabet fit: words, each matched by the token `i` and by no token declared before it, written with
blanks in no range of a token between them, are lexed as these tokens. -/
theorem C95_apart (ho : Reorders ord) (h : Lex.fromTokens ord toks = .ok lx) (ha : AtomsOk (toks.map Prod.snd))
    {is : List Nat} {ws : List (List Char)} {s : Str} (hw : List.Forall₂ (fun i w => w ≠ [] ∧ FirstMatch toks w i) is ws)
    (hs : Apart (Free toks) ws s) (hc : ∀ w ∈ ws, ∀ c ∈ w, c.toNat < 128) :
    lx.lex s = .ok ((is.zip ws).map fun p => tokenOf toks (0, p)) := by
  obtain ⟨al, hal, h1⟩ := C95_words ho h
  obtain ⟨al', hal', _, h2⟩ := C11_exact ho h
  rw [hal] at hal'; cases hal'
  exact (h1 is ws s (hw.imp fun i w h => ⟨h.1, ((h2 ha).1 w i h.1).mpr h.2⟩) hs).2 hc

theorem munch_words {al : List Match} {k input out dr} (h : Munch (PToken al toks) (PViable al toks) k input out dr) :
    List.Forall₂ (fun i w => w ≠ [] ∧ PToken al toks w i) (out.map fun p => p.2.1) (out.map fun p => p.2.2) ∧
      ∀ p ∈ out, ∀ c ∈ p.2.2, c ∈ input := by
  induction h with
  | done => exact ⟨.nil, by simp⟩
  | blank _ _ _ ih => exact ⟨ih.1, fun p hp c hc => List.mem_cons_of_mem _ (ih.2 p hp c hc)⟩
  | tok h1 h2 _ _ ih =>
    refine ⟨.cons ⟨h1.1, h1.2.2.1⟩ ih.1, fun p hp c hc => ?_⟩
    rw [h2]
    rcases List.mem_cons.mp hp with rfl | hp
    · simp [hc]
    · simp [ih.2 p hp c hc]
  | tokEnd h1 h2 _ =>
    refine ⟨.cons ⟨h1.1, h1.2.2.1⟩ .nil, fun p hp c hc => ?_⟩
    rw [h2]
    obtain rfl := List.mem_singleton.mp hp
    simp [hc]
  | stop => exact ⟨.nil, by simp⟩

/-- **C95, again.**  The words an ASCII text is cut into, written apart, are lexed and parsed as the text is. -/
theorem C95_again (ho : Reorders ord) (h : Lex.fromTokens ord toks = .ok lx) {input : Str} (hasc : ∀ c ∈ input, c.toNat < 128) :
    ∃ al out dr, Overlap.removeOverlap (ofList (rangesOf toks)) = .ok al ∧ Munch (PToken al toks) (PViable al toks) 0 input out dr ∧
      ∀ s, Apart (Free toks) (out.map fun p => p.2.2) s → lx.lex s = lx.lex input ∧
        ∀ (l : Lalr) fuel, l.lexer = lx → l.parse fuel s = l.parse fuel input := by
  obtain ⟨al, hal, h1⟩ := C95_words ho h
  obtain ⟨al1, hal1, hex⟩ := C10_exact ho h
  rw [hal] at hal1; cases hal1
  obtain ⟨out, dr, hm, _⟩ := hex input
  refine ⟨al, out, dr, hal, hm, fun s hs => ?_⟩
  have hw := munch_words hm
  have key : lx.lex s = lx.lex input := by
    rw [lex_ascii ho h hal hasc hm, (h1 _ _ s hw.1 hs).2 ?_, tokens_of_pieces (l := out.map Prod.snd) rfl]
    · congr 2
      rw [List.zip_map']
    · intro w hw' c hc
      obtain ⟨p, hp, rfl⟩ := List.mem_map.mp hw'
      exact hasc c (hw.2 p hp c hc)
  refine ⟨key, ?_⟩
  rintro l fuel rfl
  unfold Lalr.parse
  rw [key]

/-- **C95, the generated lexer.**  It reads such words as they are, with any supported characters in them. -/
theorem C95_ts (ho : Reorders ord) (h : Lex.fromTokens ord toks = .ok lx) {max : Nat} {s : Str}
    (hcov : Covered max (LexGen.Tables.new lx) s) (hsup : ∀ c ∈ s, (LexGen.charCode c).isSome = true) :
    ∃ al, Overlap.removeOverlap (ofList (rangesOf toks)) = .ok al ∧
      ∀ is ws, List.Forall₂ (fun i w => w ≠ [] ∧ PToken al toks w i) is ws → Apart (Free toks) ws s →
        Ts.lex max LexGen.charCode (LexGen.Tables.new lx) (Lex.lexFuel s) s =
          .tokens ((is.zip ws).map (fun p => some ⟨(tokenOf toks (0, p)).name, (tokenOf toks (0, p)).val.map .val⟩) ++
            [some ⟨"EOF".toList, none⟩]) := by
  obtain ⟨al, out, err, hal, hm, hu, _, he⟩ := C36_exact ho h hcov hsup
  refine ⟨al, hal, fun is ws hw hs => ?_⟩
  obtain ⟨out', _, h2, h3⟩ := apart_munch toks al hw hs
  obtain ⟨rfl, rfl⟩ := hu _ _ h2
  rw [he, ← h3, List.map_map]
  rfl

end

theorem sample_free {c : Char} (h : Blank c) : Free sampleToks c := by
  refine ⟨h, ?_⟩
  have hr : rangesOf sampleToks = [⟨105, 106⟩, ⟨102, 103⟩, ⟨97, 123⟩, ⟨97, 98⟩, ⟨98, 99⟩, ⟨99, 100⟩] := by decide
  rw [hr]
  rcases h with rfl | rfl <;> (unfold Mem; decide)

-- C95: the hypotheses; `if`, then two blanks, `ifs` and a line break.
example : ∃ lx, Lex.fromTokens (fun _ l => l) sampleToks = .ok lx ∧ Reorders (fun _ l => l) ∧ AtomsOk (sampleToks.map Prod.snd) ∧
    List.Forall₂ (fun i w => w ≠ [] ∧ FirstMatch sampleToks w i) [0, 1] ["if".toList, "ifs".toList] ∧
    Apart (Free sampleToks) ["if".toList, "ifs".toList] "if \nifs\n".toList ∧
    lx.lex "if \nifs\n".toList = .ok [⟨"if".toList, none⟩, ⟨"ident".toList, some "ifs".toList⟩] ∧
    Covered 5000 (LexGen.Tables.new lx) "if \nifs\n".toList ∧ ∀ c ∈ "if \nifs\n".toList, (LexGen.charCode c).isSome = true := by
  have hid : ∀ c : Char, 97 ≤ c.toNat → c.toNat ≤ 122 → Matches (.cls [(97, 122)]) [c] := fun c h1 h2 => .cls (r := (97, 122)) (by simp) h1 (by simpa using h2)
  refine ⟨_, rfl, reorders_id, sample_atoms, .cons ⟨by simp, ?_, by simp⟩ (.cons ⟨by simp, ?_, ?_⟩ .nil),
    .word (w := "if".toList) (s := "\nifs\n".toList) (sample_free (.inl rfl)) (.blank (sample_free (.inr rfl)) (.word (w := "ifs".toList) (sample_free (.inr rfl)) .nil)),
    by rfl, by decide +kernel, ?_⟩
  · exact ⟨_, rfl, .concatCons (w₁ := ['i']) (.lit rfl) (.concatCons (w₁ := ['f']) (w₂ := []) (.lit rfl) .concatNil)⟩
  · exact ⟨_, rfl, .plus (w₁ := ['i']) (hid _ (by decide) (by decide)) (.starCons (w₁ := ['f']) (hid _ (by decide) (by decide))
      (.starCons (w₁ := ['s']) (w₂ := []) (hid _ (by decide) (by decide)) .starNil))⟩
  · intro j p hj hp hm
    obtain rfl : j = 0 := by omega
    cases hp
    generalize hw : "ifs".toList = w at hm
    cases hm with
    | @concatCons _ _ w1 w2 h1 h2 =>
      cases h1
      cases h2 with
      | concatCons h3 h4 =>
        cases h3
        cases h4
        have := congrArg List.length hw
        simp at this
  · rw [charCode_fun]; decide +kernel

/-- C95 needs blanks in no range of a token: with the tokens `a`, `b` and `a b`, the words `a` and `b` with a blank between
them are one token. -/
theorem C95_needs : ∃ toks lx, Lex.fromTokens (fun _ l => l) toks = .ok lx ∧ toks[0]? = some (tok "a", Hir.lit 97) ∧
    toks[1]? = some (tok "b", Hir.lit 98) ∧ lx.lex "a".toList = .ok [⟨"a".toList, none⟩] ∧ lx.lex "b".toList = .ok [⟨"b".toList, none⟩] ∧
    lx.lex "a b".toList = .ok [⟨"ab".toList, none⟩] :=
  ⟨[(tok "a", .lit 97), (tok "b", .lit 98), (tok "ab", .concat [.lit 97, .lit 32, .lit 98])], _, rfl, rfl, rfl, by rfl, by rfl, by rfl⟩

end Verif.Props
