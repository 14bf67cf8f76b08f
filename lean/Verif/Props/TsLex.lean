import Verif.Proofs.TsLexAll
import Verif.Props.Lexer

/-! # Properties C35, C36, C46: the generated lexer tables and ts/lex.ts -/

namespace Verif.Props
open Verif Spec

/-! ## C35 -/

/-- C35.  There is one generated state per DFA state.  For DFA state `s` the
generated state lists targets and label bounds of its edges in the order the Rust
lexer tries them, says whether `s` accepts, and `GetTokenDef` (through DFAtoNFA
and Tokens) finds the definition the Rust lexer would report, or none if `s` does
not accept. -/
theorem C35_tables {toks : List (TokenDef × Hir)} {lx : Lex} {ord : Nfa.Order} (ho : Reorders ord)
    (h : Lex.fromTokens ord toks = .ok lx) :
    (LexGen.Tables.new lx).states.length = lx.dfa.states.length ∧
    ∀ s, s < lx.dfa.states.length → ∃ st, (LexGen.Tables.new lx).states[s]? = some st ∧
      st.to = (lx.dfa.edgeIter s).map (·.dst) ∧
      st.labels = (lx.dfa.edgeIter s).map (fun e => (e.label.lo, e.label.hi)) ∧
      st.accepting = (lx.acceptOf s).isSome ∧
      Ts.getTokenDef (LexGen.Tables.new lx) s =
        (lx.acceptOf s).bind fun a => (mget a lx.tokens).map fun d => (d.name, d.withVal) := by
  obtain ⟨N, acc, al, D, s0, M⟩ := Lex.fromTokens_made (reorders_ok ho) h
  refine ⟨by simp [LexGen.Tables.new], fun s hs => ⟨_, Lex.new_states hs, rfl, rfl, ?_, M.getTokenDef hs⟩⟩
  exact M.stateIsAccepting s

/-- Accepting states do get a definition: that of a declared token. -/
theorem C35_accepting {toks : List (TokenDef × Hir)} {lx : Lex} {ord : Nfa.Order} (ho : Reorders ord)
    (h : Lex.fromTokens ord toks = .ok lx) (s : Nat) (st : LexGen.State)
    (hst : (LexGen.Tables.new lx).states[s]? = some st) :
    (st.accepting = true → ∃ p ∈ toks, Ts.getTokenDef (LexGen.Tables.new lx) s = some (p.1.name, p.1.withVal)) ∧
    (st.accepting = false → Ts.getTokenDef (LexGen.Tables.new lx) s = none) := by
  obtain ⟨N, acc, al, D, s0, M⟩ := Lex.fromTokens_made (reorders_ok ho) h
  have hs : s < lx.dfa.states.length := by
    have := (List.getElem?_eq_some_iff.mp hst).1
    simpa [LexGen.Tables.new] using this
  rw [Lex.new_states hs] at hst
  cases hst
  rw [M.getTokenDef hs]
  simp only [LexGen.State.fromLexState, M.stateIsAccepting]
  constructor
  · intro ha
    obtain ⟨a, ha⟩ := Option.isSome_iff_exists.mp ha
    obtain ⟨i, q, hq, _, hm⟩ := M.accept_token hs ha
    exact ⟨q, List.mem_of_getElem? hq, by simp [ha, hm]⟩
  · intro ha
    rw [Option.isSome_eq_false_iff, Option.isNone_iff_eq_none] at ha
    rw [ha]; rfl

/-- Concrete case: state 6 of the DFA of `if`, `[a-z]+`, `(a|bc*)+` accepts both
`if` and the identifier, and the definition found is that of `if`; state 0 does
not accept. -/
example : ∃ lx, Lex.fromTokens (fun _ l => l) sampleToks = .ok lx ∧ 6 < lx.dfa.states.length ∧
    Ts.getTokenDef (LexGen.Tables.new lx) 6 = some ("if".toList, false) ∧
    Ts.getTokenDef (LexGen.Tables.new lx) 0 = none ∧ Reorders (fun _ l => l) :=
  ⟨_, rfl, by decide, by rfl, by rfl, reorders_id⟩

/-! ## C46: the character table -/

/-- C46.  The generated character table has exactly the characters up to U+00FF
other than tab, vertical tab, form feed, carriage return, delete, no-break space
and soft hyphen, each with its own code. -/
theorem C46_char_table (c : Char) :
    LexGen.charCode c = if c.toNat < 256 ∧ c.toNat ∉ [9, 11, 12, 13, 127, 160, 173] then some c.toNat
      else none := LexGen.charCode_eq c

example : LexGen.charCode '\n' = some 10 ∧ LexGen.charCode '\t' = none ∧ LexGen.charCode 'é' = some 233 ∧
    LexGen.charCode 'λ' = none := by
  simp only [C46_char_table]; decide

/-! ## C36 -/

/-- The arithmetic tables cover the codes of the characters, the length of the
input, the number of edges of each generated state, and the lower bounds of the
labels. -/
structure Covered (max : Nat) (T : LexGen.Tables) (input : Str) : Prop where
  chars : 255 ≤ max
  input : input.length ≤ max
  fan : ∀ st ∈ T.states, st.to.length ≤ max
  lows : ∀ st ∈ T.states, ∀ r ∈ st.labels, r.1 ≤ max

theorem covered_fits {max : Nat} {lx : Lex} {input : Str} (h : Covered max (LexGen.Tables.new lx) input) :
    Lex.Fits max lx := by
  have hout : ∀ s, ¬ s < lx.dfa.states.length → lx.dfa.edgeIter s = [] := by
    intro s hs
    unfold Dfa.edgeIter
    rw [List.getElem?_eq_none (by omega)]; rfl
  have hmem : ∀ s, s < lx.dfa.states.length → LexGen.State.fromLexState lx.dfa s ∈ (LexGen.Tables.new lx).states :=
    fun s hs => List.mem_of_getElem? (Lex.new_states hs)
  refine ⟨fun s e he => ?_, fun s => ?_, h.chars⟩
  · by_cases hs : s < lx.dfa.states.length
    · exact h.lows _ (hmem s hs) (e.label.lo, e.label.hi) (List.mem_map.mpr ⟨e, he, rfl⟩)
    · rw [hout s hs] at he; cases he
  · by_cases hs : s < lx.dfa.states.length
    · have := h.fan _ (hmem s hs)
      simpa [LexGen.State.fromLexState] using this
    · rw [hout s hs]; simp

theorem supported {input : Str} (h : ∀ c ∈ input, (LexGen.charCode c).isSome = true) :
    ∀ c ∈ input, LexGen.charCode c = some c.toNat ∧ c.toNat ≤ 255 := by
  intro c hc
  have := h c hc
  rw [LexGen.charCode_eq] at this ⊢
  by_cases hcond : c.toNat < 256 ∧ c.toNat ∉ LexGen.invisible
  · rw [if_pos hcond]; exact ⟨rfl, by omega⟩
  · rw [if_neg hcond] at this; cases this

/-- C36, partial: for every token list and every ASCII input of supported
characters covered by the arithmetic tables, either the Rust loop consumes the
whole input and `Lex` gives the tokens of the Rust lexer followed by EOF, or the
Rust loop stops at some index before the end and `Lex` reports the character at
that index as invalid.  Missing: label bounds beyond the tables (`C36_false`),
and supported characters above U+007F (`C36_pieces_partial`), where Rust values are wrong
(`C36_false_value`). -/
theorem C36_agrees_partial {toks : List (TokenDef × Hir)} {lx : Lex} {ord : Nfa.Order} (ho : Reorders ord)
    (h : Lex.fromTokens ord toks = .ok lx) {max : Nat} {input : Str}
    (hcov : Covered max (LexGen.Tables.new lx) input)
    (hsup : ∀ c ∈ input, (LexGen.charCode c).isSome = true) (hasc : ∀ c ∈ input, c.toNat < 128) :
    ∃ st ts, lx.lexLoop input (Lex.lexFuel input) ⟨[], 0, 0, 0, none⟩ = .ok st ∧ lx.lex input = .ok ts ∧
      ((st.forward = input.length ∧
        Ts.lex max LexGen.charCode (LexGen.Tables.new lx) (Lex.lexFuel input) input =
          .tokens (ts.map (fun t => some ⟨t.name, t.val.map .val⟩) ++ [some ⟨"EOF".toList, none⟩])) ∨
       ∃ c, input[st.forward]? = some c ∧
        Ts.lex max LexGen.charCode (LexGen.Tables.new lx) (Lex.lexFuel input) input =
          .invalidSymbol c (some st.forward)) := by
  obtain ⟨N, acc, al, D, s0, M⟩ := Lex.fromTokens_made (reorders_ok ho) h
  exact M.agree (covered_fits hcov) hcov.input fun c hc => ⟨(supported hsup c hc).1, hasc c hc⟩

/-- C36 for every supported text, ASCII or not, and every token list: both lexers cut the text into the same
pieces.  The Rust lexer returns just when the bounds of each piece with a value, counted in characters, are
bounds in bytes; `Lex` gives the tokens of the pieces with their texts, or reports the character at which the
Rust loop stops, if that does not panic.  Missing: label bounds beyond the tables (`C36_false`). -/
theorem C36_pieces_partial {toks : List (TokenDef × Hir)} {lx : Lex} {ord : Nfa.Order} (ho : Reorders ord)
    (h : Lex.fromTokens ord toks = .ok lx) {max : Nat} {input : Str}
    (hcov : Covered max (LexGen.Tables.new lx) input)
    (hsup : ∀ c ∈ input, (LexGen.charCode c).isSome = true) :
    ∃ out cut dropped, Pieces toks 0 input out dropped ∧ input = cut ++ dropped ∧
      (∀ ts, lx.lex input = .ok ts ↔ List.Forall₂ (Carries toks input) out ts) ∧
      ((Ts.lex max LexGen.charCode (LexGen.Tables.new lx) (Lex.lexFuel input) input =
          .tokens (out.map (fun p => some ⟨(tokenOf toks p).name, (tokenOf toks p).val.map .val⟩) ++
            [some ⟨"EOF".toList, none⟩]) ∧
        ∀ st, lx.lexLoop input (Lex.lexFuel input) ⟨[], 0, 0, 0, none⟩ = .ok st → st.forward = input.length) ∨
       ∃ i c, cut.length ≤ i ∧ input[i]? = some c ∧
        Ts.lex max LexGen.charCode (LexGen.Tables.new lx) (Lex.lexFuel input) input = .invalidSymbol c (some i) ∧
        ∀ st, lx.lexLoop input (Lex.lexFuel input) ⟨[], 0, 0, 0, none⟩ = .ok st → st.forward = i) := by
  obtain ⟨N, acc, al, D, s0, M⟩ := Lex.fromTokens_made (reorders_ok ho) h
  exact M.agreeAll (covered_fits hcov) hcov.input (supported hsup)

/-- C36 against the specification, for all supported characters: `Lex` returns
what `Scan` allows, and `Scan` allows one result only. -/
theorem C36_text_partial {toks : List (TokenDef × Hir)} {lx : Lex} {ord : Nfa.Order} (ho : Reorders ord)
    (h : Lex.fromTokens ord toks = .ok lx) (ha : AtomsOk (toks.map Prod.snd)) (hv : ∀ p ∈ toks, NonVoid p.2)
    {max : Nat} {input : Str} (hcov : Covered max (LexGen.Tables.new lx) input)
    (hsup : ∀ c ∈ input, (LexGen.charCode c).isSome = true) :
    ∃ out err, Scan toks 0 input out err ∧
      (∀ out' err', Scan toks 0 input out' err' → out' = out ∧ err' = err) ∧
      Ts.lex max LexGen.charCode (LexGen.Tables.new lx) (Lex.lexFuel input) input =
        match err with
        | none => .tokens (out.map (fun p => some ⟨(tokenOf toks p).name, (tokenOf toks p).val.map .val⟩) ++
            [some ⟨"EOF".toList, none⟩])
        | some (i, c) => .invalidSymbol c (some i) := by
  obtain ⟨N, acc, al, D, s0, M⟩ := Lex.fromTokens_made (reorders_ok ho) h
  obtain ⟨out, err, h1, h2⟩ := M.tsLex (made_disjoint M ha) hv (covered_fits hcov) hcov.input (supported hsup)
  refine ⟨out, err, h1, fun _ _ h' => Lex.scan_unique h' h1, ?_⟩
  rw [h2]
  cases err with
  | none => rfl
  | some p => rfl

/-- The unsupported characters: `Lex` gives one of its `unreachable` strings. -/
theorem C36_unsupported {T : LexGen.Tables} {max fuel : Nat} {input : Str}
    (h : ∃ c ∈ input, LexGen.charCode c = none) :
    Ts.lex max LexGen.charCode T fuel input = .unreachable := by
  have : ∀ (s l : List Char), (∃ c ∈ s, LexGen.charCode c = none) → Ts.charList LexGen.charCode s l = none := by
    intro s
    induction s with
    | nil => rintro l ⟨c, hc, _⟩; cases hc
    | cons d s ih =>
      rintro l ⟨c, hc, hn⟩
      rw [Ts.charList]
      cases hd : LexGen.charCode d with
      | none => rfl
      | some x =>
        simp only
        rcases List.mem_cons.mp hc with rfl | hc
        · rw [hn] at hd; cases hd
        · exact ih _ ⟨c, hc, hn⟩
  unfold Ts.lex
  rw [this input [] h]

/-- The character table as a function that can be evaluated. -/
def codeOf (c : Char) : Option Nat :=
  if c.toNat < 256 ∧ c.toNat ∉ [9, 11, 12, 13, 127, 160, 173] then some c.toNat else none

theorem charCode_fun : LexGen.charCode = codeOf := funext C46_char_table

instance (max : Nat) (T : LexGen.Tables) (input : Str) : Decidable (Covered max T input) :=
  decidable_of_iff (255 ≤ max ∧ input.length ≤ max ∧ (∀ st ∈ T.states, st.to.length ≤ max) ∧
    ∀ st ∈ T.states, ∀ r ∈ st.labels, r.1 ≤ max)
    ⟨fun ⟨a, b, c, d⟩ => ⟨a, b, c, d⟩, fun ⟨a, b, c, d⟩ => ⟨a, b, c, d⟩⟩

/-- Concrete case: hypotheses of both theorems, an accepted input and a rejected one. -/
example : ∃ lx, Lex.fromTokens (fun _ l => l) sampleToks = .ok lx ∧ AtomsOk (sampleToks.map Prod.snd) ∧
    (∀ p ∈ sampleToks, NonVoid p.2) ∧ Covered 5000 (LexGen.Tables.new lx) "if ifs!".toList ∧
    (∀ c ∈ "if ifs!".toList, (LexGen.charCode c).isSome = true) ∧
    Ts.lex 5000 LexGen.charCode (LexGen.Tables.new lx) 56 "if ifs".toList =
      .tokens [some ⟨"if".toList, none⟩, some ⟨"ident".toList, some (.val "ifs".toList)⟩,
        some ⟨"EOF".toList, none⟩] ∧
    Ts.lex 5000 LexGen.charCode (LexGen.Tables.new lx) 72 "if ifs!".toList = .invalidSymbol '!' (some 6) := by
  rw [charCode_fun]
  exact ⟨_, rfl, sample_atoms, sample_nonVoid, by decide +kernel, by decide +kernel, by decide +kernel,
    by decide +kernel⟩

/-- One token, the characters U+2000 to U+2007. -/
def spaceToks : List (TokenDef × Hir) := [(tok "space", .cls [(8192, 8199)])]

/-- C36 is false in general: with the generated arithmetic tables of size 5000 a
label that starts beyond them matches every character, so `b` lexes as that token
in TypeScript while the Rust lexer stops at it. -/
theorem C36_false : ∃ lx, Lex.fromTokens (fun _ l => l) spaceToks = .ok lx ∧ lx.lex "b".toList = .ok [] ∧
    lx.lexLoop "b".toList (Lex.lexFuel "b".toList) ⟨[], 0, 0, 0, none⟩ = .ok ⟨[], 0, 0, 0, none⟩ ∧
    Ts.lex 5000 LexGen.charCode (LexGen.Tables.new lx) (Lex.lexFuel "b".toList) "b".toList =
      .tokens [some ⟨"space".toList, none⟩, some ⟨"EOF".toList, none⟩] := by
  rw [charCode_fun]
  exact ⟨_, rfl, by rfl, by rfl, by decide +kernel⟩

/-- C36 is false for characters above U+007F: the two lexers give different
values, or the Rust lexer panics; ts/lex.ts has the matched text. -/
theorem C36_false_value : ∃ lx, Lex.fromTokens (fun _ l => l) accentToks = .ok lx ∧
    lx.lex "éa".toList = .ok [⟨"w".toList, some "é".toList⟩] ∧
    Ts.lex 5000 LexGen.charCode (LexGen.Tables.new lx) (Lex.lexFuel "éa".toList) "éa".toList =
      .tokens [some ⟨"w".toList, some (.val "éa".toList)⟩, some ⟨"EOF".toList, none⟩] ∧
    lx.lex "aé".toList = .error .charBoundary ∧
    Ts.lex 5000 LexGen.charCode (LexGen.Tables.new lx) (Lex.lexFuel "aé".toList) "aé".toList =
      .tokens [some ⟨"w".toList, some (.val "aé".toList)⟩, some ⟨"EOF".toList, none⟩] := by
  rw [charCode_fun]
  exact ⟨_, rfl, by rfl, by decide +kernel, by rfl, by decide +kernel⟩

-- C36_pieces_partial: the hypotheses for `éa`, which both lexers take as one piece.
example : ∃ lx, Lex.fromTokens (fun _ l => l) accentToks = .ok lx ∧ Covered 5000 (LexGen.Tables.new lx) "éa".toList ∧
    (∀ c ∈ "éa".toList, (LexGen.charCode c).isSome = true) ∧
    Pieces accentToks 0 "éa".toList [(0, 0, "éa".toList)] [] ∧
    List.Forall₂ (Carries accentToks "éa".toList) [(0, 0, "éa".toList)] [⟨"w".toList, some "é".toList⟩] := by
  rw [charCode_fun]
  obtain ⟨lx, h1, _, h2, _⟩ := C12_false
  refine ⟨lx, h1, ?_, by decide +kernel, Lex.lexes_pieces h2,
    .cons ⟨_, _, rfl, rfl, .inr ⟨rfl, _, rfl, [], ['a'], by decide, rfl, by decide⟩⟩ .nil⟩
  cases h1
  decide +kernel

end Verif.Props
