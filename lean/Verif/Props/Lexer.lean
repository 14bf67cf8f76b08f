import Verif.Spec.Lexer
import Verif.Proofs.LexUnique
import Verif.Proofs.LexBytes
import Verif.Props.Dfa

/-! # Properties C10-C15: the lexer -/

namespace Verif.Props
open Verif Spec

theorem made_disjoint {toks lx N acc al D s0} (M : Lex.Made toks lx N acc al D s0)
    (ha : AtomsOk (toks.map Prod.snd)) : Dfa.Uniform N al :=
  built_disjoint M.built ha (rangesOf_eq toks ▸ combined_labels M.comb) (combined_after M.comb)

theorem lexes_ascii {toks : List (TokenDef × Hir)} {lx : Lex} {ord : Nfa.Order} (ho : Reorders ord)
    (h : Lex.fromTokens ord toks = .ok lx) (ha : AtomsOk (toks.map Prod.snd))
    (hv : ∀ p ∈ toks, NonVoid p.2) (input : Str) (hasc : ∀ c ∈ input, c.toNat < 128) :
    ∃ out dropped, Lexes toks 0 input out dropped ∧ lx.lex input = .ok (out.map (tokenOf toks)) := by
  obtain ⟨N, acc, al, D, s0, M⟩ := Lex.fromTokens_made (reorders_ok ho) h
  obtain ⟨out, dr, h1, h2⟩ := Lex.lex_run lx input
  obtain ⟨out', h3, h4⟩ := M.lexes (made_disjoint M ha) hv input h1
  refine ⟨out', dr, h3, ?_⟩
  rw [h2, h4, Lex.expected_ascii hasc (Lex.lexes_pieces h3)]

/-! ## C10, C11 -/

/-- C10, partial.  On ASCII input the lexer returns the tokens of the maximal
munch specification `Lexes`, which allows only one result.  Missing: token lists
whose ranges are split wrongly (`C10_false`) and non-ASCII input, where the cut is
the same but values are wrong (`C10_cut_partial`, `C12_false`). -/
theorem C10_maximal_munch_partial {toks : List (TokenDef × Hir)} {lx : Lex} {ord : Nfa.Order}
    (ho : Reorders ord) (h : Lex.fromTokens ord toks = .ok lx) (ha : AtomsOk (toks.map Prod.snd))
    (hv : ∀ p ∈ toks, NonVoid p.2) (input : Str) (hasc : ∀ c ∈ input, c.toNat < 128) :
    ∃ out dropped, Lexes toks 0 input out dropped ∧ lx.lex input = .ok (out.map (tokenOf toks)) ∧
      ∀ out' dropped', Lexes toks 0 input out' dropped' → out' = out ∧ dropped' = dropped := by
  obtain ⟨out, dr, h1, h2⟩ := lexes_ascii ho h ha hv input hasc
  exact ⟨out, dr, h1, h2, fun _ _ h' => Lex.lexes_unique h' h1⟩

/-- C10 for any input whatever its encoding: if the lexer returns, the names of
the tokens are those of the maximal munch cut. -/
theorem C10_cut_partial {toks : List (TokenDef × Hir)} {lx : Lex} {ord : Nfa.Order}
    (ho : Reorders ord) (h : Lex.fromTokens ord toks = .ok lx) (ha : AtomsOk (toks.map Prod.snd))
    (hv : ∀ p ∈ toks, NonVoid p.2) (input : Str) :
    ∃ out dropped, Lexes toks 0 input out dropped ∧
      ∀ ts, lx.lex input = .ok ts → ts.map (·.name) = out.map fun p => (tokenOf toks p).name := by
  obtain ⟨N, acc, al, D, s0, M⟩ := Lex.fromTokens_made (reorders_ok ho) h
  obtain ⟨out, dr, h1, h2⟩ := Lex.lex_run lx input
  obtain ⟨out', h3, h4⟩ := M.lexes (made_disjoint M ha) hv input h1
  refine ⟨out', dr, h3, ?_⟩
  rw [h2, h4]
  clear h2 h4 h3
  induction out' with
  | nil => intro ts hts; cases hts; rfl
  | cons p out' ih =>
    intro ts hts
    simp only [List.mapM_cons] at hts
    cases hp : Lex.expected toks input p with
    | error e => simp [hp, bind, Except.bind] at hts
    | ok t =>
      cases hm : out'.mapM (Lex.expected toks input) with
      | error e => simp [hp, hm, bind, Except.bind] at hts
      | ok ts' =>
        simp only [hp, hm, bind, Except.bind, pure, Except.pure, Except.ok.injEq] at hts
        subst hts
        simp only [List.map_cons, ih ts' hm, List.cons.injEq, and_true]
        unfold Lex.expected at hp
        unfold tokenOf
        cases hq : toks[p.2.1]? with
        | none => simp [hq] at hp
        | some q =>
          simp only [hq] at hp
          cases hw : q.1.withVal with
          | false => simp only [hw] at hp; cases hp; rfl
          | true =>
            simp only [hw, if_true] at hp
            cases hb : Lex.byteSlice input p.1 (p.1 + p.2.2.length) with
            | error e => simp [hb, bind, Except.bind] at hp
            | ok v => simp only [hb, bind, Except.bind, pure, Except.pure] at hp; cases hp; rfl

/-- What `Lexes` says about each token, spelled out: its text is the longest
match of the remaining input and its kind is the first declared one matching it. -/
theorem C11_first_declared_partial {toks : List (TokenDef × Hir)} {lx : Lex} {ord : Nfa.Order}
    (ho : Reorders ord) (h : Lex.fromTokens ord toks = .ok lx) (ha : AtomsOk (toks.map Prod.snd))
    (hv : ∀ p ∈ toks, NonVoid p.2) (input : Str) (hasc : ∀ c ∈ input, c.toNat < 128) :
    ∃ out : List (Nat × Nat × List Char), lx.lex input = .ok (out.map (tokenOf toks)) ∧
      ∀ k i w, (k, i, w) ∈ out → FirstMatch toks w i ∧
        ∃ pre post, input = pre ++ post ∧ k = pre.length ∧ LongestMatch toks post w := by
  obtain ⟨out, dr, h1, h2⟩ := lexes_ascii ho h ha hv input hasc
  refine ⟨out, h2, fun k i w hm => ?_⟩
  obtain ⟨g1, pre, post, g2, g3, g4⟩ := Lex.lexes_first h1 _ hm
  exact ⟨g1, pre, post, g2, by simpa using g3, g4⟩

theorem sample_nonVoid : ∀ p ∈ sampleToks, NonVoid p.2 := by
  intro p hp
  simp only [sampleToks, List.mem_cons, List.not_mem_nil, or_false] at hp
  rcases hp with rfl | rfl | rfl
  · exact .concat (by
      intro h hh
      simp only [List.mem_cons, List.not_mem_nil, or_false] at hh
      rcases hh with rfl | rfl
      · exact .lit 'i'
      · exact .lit 'f')
  · exact .rep (.cls (by simp) (by
      intro r hr
      simp only [List.mem_cons, List.not_mem_nil, or_false] at hr
      subst hr; exact ⟨'a', by decide, by decide⟩))
  · refine .rep (.group (.alt (by simp) ?_))
    intro h hh
    simp only [List.mem_cons, List.not_mem_nil, or_false] at hh
    rcases hh with rfl | rfl
    · exact .lit 'a'
    · refine .concat ?_
      intro h hh
      simp only [List.mem_cons, List.not_mem_nil, or_false] at hh
      rcases hh with rfl | rfl
      · exact .lit 'b'
      · exact .rep (.lit 'c')

example : ∃ lx, Lex.fromTokens (fun _ l => l) sampleToks = .ok lx ∧ AtomsOk (sampleToks.map Prod.snd) ∧
    (∀ p ∈ sampleToks, NonVoid p.2) ∧
    lx.lex "if ifs\nabc".toList = .ok [⟨"if".toList, none⟩, ⟨"ident".toList, some "ifs".toList⟩,
      ⟨"ident".toList, some "abc".toList⟩] :=
  ⟨_, rfl, sample_atoms, sample_nonVoid, by rfl⟩

/-- Tokens `cx`, `[a-d]`, `[b-j]`, `[c-t]`. -/
def badToks2 : List (TokenDef × Hir) :=
  [(tok "cx", .concat [.lit 99, .lit 120]), (tok "d", .cls [(97, 100)]), (tok "j", .cls [(98, 106)]),
   (tok "t", .cls [(99, 116)])]

/-- C10 is false in general: with the tokens `cx`, `[a-d]`, `[b-j]`, `[c-t]`
the input `cx`, which the first token matches, lexes as `[a-d]` alone. -/
theorem C10_false : ∃ lx, Lex.fromTokens (fun _ l => l) badToks2 = .ok lx ∧
    lx.lex "cx".toList = .ok [⟨"d".toList, none⟩] ∧
    LongestMatch badToks2 "cx".toList "cx".toList := by
  refine ⟨_, rfl, by rfl, by simp, ⟨[], rfl⟩, ⟨_, List.mem_cons_self, ?_⟩, ?_⟩
  · exact .concatCons (w₁ := ['c']) (w₂ := ['x']) (.lit (by decide))
      (.concatCons (w₁ := ['x']) (w₂ := []) (.lit (by decide)) .concatNil)
  · rintro v ⟨r, hr⟩ hlt
    have := congrArg List.length hr
    simp only [List.length_append] at this
    omega

/-- C11 is false in general: `c` is matched by the first token, but the second
one is emitted. -/
theorem C11_false : ∃ lx, Lex.fromTokens (fun _ l => l) badToks = .ok lx ∧
    lx.lex ['c'] = .ok [⟨"d".toList, none⟩] ∧ FirstMatch badToks ['c'] 0 ∧
    tokenOf badToks (0, 0, ['c']) = ⟨"c".toList, none⟩ := by
  refine ⟨_, rfl, by rfl, ⟨⟨_, rfl, .lit (by decide)⟩, by intro j p hj; omega⟩, by rfl⟩

/-! ## C12 -/

/-- C12, partial: on ASCII input, for every token list, the tokens are those of
non-empty pieces of the input, and a token with a value carries the text of its
piece.  Missing: non-ASCII input, where it is false (`C12_false`). -/
theorem C12_values_partial {toks : List (TokenDef × Hir)} {lx : Lex} {ord : Nfa.Order}
    (ho : Reorders ord) (h : Lex.fromTokens ord toks = .ok lx) (input : Str)
    (hasc : ∀ c ∈ input, c.toNat < 128) :
    ∃ out dropped, Pieces toks 0 input out dropped ∧ lx.lex input = .ok (out.map (tokenOf toks)) := by
  obtain ⟨N, acc, al, D, s0, M⟩ := Lex.fromTokens_made (reorders_ok ho) h
  obtain ⟨out, dr, h1, h2⟩ := Lex.lex_run lx input
  obtain ⟨out', h3, h4⟩ := M.pieces input h1
  exact ⟨out', dr, h3, by rw [h2, h4, Lex.expected_ascii hasc h3]⟩

/-- C12 for every input: which text a token with a value carries.  The input is cut into
pieces, each the text some token matches, and the lexer returns exactly if, for each piece with a
value, its position and length counted in characters are, taken as bytes, the bounds of a piece
of text; that text is the value. -/
theorem C12_exact_partial {toks : List (TokenDef × Hir)} {lx : Lex} {ord : Nfa.Order}
    (ho : Reorders ord) (h : Lex.fromTokens ord toks = .ok lx) (input : Str) :
    ∃ out dropped, Pieces toks 0 input out dropped ∧
      ∀ ts, lx.lex input = .ok ts ↔ List.Forall₂ (Carries toks input) out ts := by
  obtain ⟨N, acc, al, D, s0, M⟩ := Lex.fromTokens_made (reorders_ok ho) h
  obtain ⟨out, dr, h1, h2⟩ := Lex.lex_run lx input
  obtain ⟨out', h3, h4⟩ := M.pieces input h1
  refine ⟨out', dr, h3, fun ts => ?_⟩
  rw [h2, h4, Lex.mapM_iff]
  simp only [Lex.expected_iff]

/-- So the value is right for every token that ends before the first non-ASCII character. -/
theorem C12_prefix_partial {toks : List (TokenDef × Hir)} {lx : Lex} {ord : Nfa.Order}
    (ho : Reorders ord) (h : Lex.fromTokens ord toks = .ok lx) (input : Str) (ts : List Token)
    (hl : lx.lex input = .ok ts) :
    ∃ out dropped, Pieces toks 0 input out dropped ∧
      List.Forall₂ (fun p t => (∀ c ∈ input.take (p.1 + p.2.2.length), c.toNat < 128) →
        t = tokenOf toks p) out ts := by
  obtain ⟨out, dr, h1, h2⟩ := C12_exact_partial ho h input
  refine ⟨out, dr, h1, ?_⟩
  have hw := Lex.pieces_where h1
  have h3 := (h2 ts).mp hl
  clear h1 h2 hl
  induction h3 with
  | nil => exact .nil
  | @cons p t out ts hp _ ih =>
    refine .cons (fun hasc => ?_) (ih fun q hq => hw q (by simp [hq]))
    obtain ⟨pre, post, e1, e2, _⟩ := hw p (by simp)
    obtain ⟨d, hh, h4, h5, h6⟩ := hp
    obtain ⟨tn, tv⟩ := t
    simp only at h5 h6
    subst h5
    unfold tokenOf
    rw [h4]
    rcases h6 with ⟨h6, rfl⟩ | ⟨h6, v, rfl, h7⟩
    · simp [h6]
    · have hk : p.1 = pre.length := by omega
      have h8 : BytesAt input p.1 p.2.2.length p.2.2 := by
        have hap : ∀ c ∈ pre ++ p.2.2, c.toNat < 128 := by
          intro c hc
          refine hasc c ?_
          rw [e1, hk, show pre ++ (p.2.2 ++ post) = (pre ++ p.2.2) ++ post by simp,
            List.take_left' (by simp)]
          exact hc
        refine ⟨pre, post, by rw [e1]; simp, ?_, ?_⟩
        · rw [hk]; exact Lex.bytes_ascii fun c hc => hap c (by simp [hc])
        · exact Lex.bytes_ascii fun c hc => hap c (by simp [hc])
      have := (Lex.byteSlice_iff.mpr h7).symm.trans (Lex.byteSlice_iff.mpr h8)
      cases this
      simp [h6]

/-- One token `[a-zé]+` with value. -/
def accentToks : List (TokenDef × Hir) :=
  [(⟨"w".toList, true, none⟩, .rep .oneOrMore (.cls [(97, 122), (233, 233)]))]

/-- C12 is false of the code on non-ASCII input: for `éa`, which the token
matches as a whole, the value is `é`, and for `aé` the lexer panics. -/
theorem C12_false : ∃ lx, Lex.fromTokens (fun _ l => l) accentToks = .ok lx ∧
    lx.lex "éa".toList = .ok [⟨"w".toList, some "é".toList⟩] ∧
    Lexes accentToks 0 "éa".toList [(0, 0, "éa".toList)] [] ∧
    lx.lex "aé".toList = .error .charBoundary := by
  have hm : Matches (.rep .oneOrMore (.cls [(97, 122), (233, 233)])) ['é', 'a'] :=
    .plus (w₁ := ['é']) (w₂ := ['a']) (.cls (r := (233, 233)) (by simp) (by decide) (by decide))
      (.starCons (w₁ := ['a']) (w₂ := []) (.cls (r := (97, 122)) (by simp) (by decide) (by decide)) .starNil)
  refine ⟨_, rfl, by rfl, ?_, by rfl⟩
  refine .tokEnd (w := ['é', 'a']) ⟨by simp, ⟨[], rfl⟩, ⟨_, List.mem_cons_self, hm⟩, ?_⟩
    ⟨⟨_, rfl, hm⟩, by intro j p hj; omega⟩ rfl ⟨[], _, List.mem_cons_self, hm⟩
  rintro v ⟨r, hr⟩ hlt
  have : 2 = v.length + r.length := (congrArg List.length hr).trans List.length_append
  have : 2 < v.length := hlt
  omega

example : ∃ lx, Lex.fromTokens (fun _ l => l) sampleToks = .ok lx ∧
    (∀ c ∈ "if abc".toList, c.toNat < 128) := ⟨_, rfl, by decide⟩

/-- The text `éa` is cut as one piece of two characters, and carries the two bytes of `é`. -/
example : ∃ lx, Lex.fromTokens (fun _ l => l) accentToks = .ok lx ∧
    lx.lex "éa".toList = .ok [⟨"w".toList, some "é".toList⟩] ∧
    Carries accentToks "éa".toList (0, 0, "éa".toList) ⟨"w".toList, some "é".toList⟩ :=
  ⟨_, rfl, by rfl, _, _, rfl, rfl, .inr ⟨rfl, _, rfl, [], ['a'], by decide, rfl, by decide⟩⟩

/-- `ab é`: the first token ends before the accent. -/
example : ∃ lx, Lex.fromTokens (fun _ l => l) accentToks = .ok lx ∧
    lx.lex "ab éa".toList = .ok [⟨"w".toList, some "ab".toList⟩, ⟨"w".toList, some "é".toList⟩] :=
  ⟨_, rfl, by rfl⟩

/-! ## C13 -/

/-- C13.  For every token list and input, lexing ends: either with at most one
token per character, each made from a non-empty piece, or with the slicing panic, and then
the part that was cut into pieces is not ASCII. -/
theorem C13_terminates {toks : List (TokenDef × Hir)} {lx : Lex} {ord : Nfa.Order}
    (ho : Reorders ord) (h : Lex.fromTokens ord toks = .ok lx) (input : Str) :
    ∃ out cut dropped, input = cut ++ dropped ∧ Pieces toks 0 input out dropped ∧ out.length ≤ input.length ∧
      (∀ p ∈ out, p.2.2 ≠ []) ∧
      ((∃ ts, lx.lex input = .ok ts ∧ ts.length = out.length) ∨
        (lx.lex input = .error .charBoundary ∧ ∃ c ∈ cut, 128 ≤ c.toNat)) := by
  obtain ⟨N, acc, al, D, s0, M⟩ := Lex.fromTokens_made (reorders_ok ho) h
  obtain ⟨out, dr, h1, h2⟩ := Lex.lex_run lx input
  obtain ⟨out', h3, h4⟩ := M.pieces input h1
  obtain ⟨a, h0, h5⟩ := Lex.pieces_split h3
  refine ⟨out', a, dr, h0, h3, by have := Lex.pieces_len h3; omega, ?_, ?_⟩
  · intro p hp
    obtain ⟨_, _, _, _, h, _⟩ := Lex.pieces_where h3 p hp
    exact h
  · rw [h2, h4]
    by_cases hasc : ∀ c ∈ a, c.toNat < 128
    · left
      refine ⟨_, Lex.expected_ascii' h3 fun b hb => ?_, by simp⟩
      rw [List.append_cancel_right (h0.symm.trans hb)] at hasc
      exact hasc
    · have hex : ∃ c ∈ a, 128 ≤ c.toNat := by
        simp only [not_forall, not_lt] at hasc
        obtain ⟨c, hc, hl⟩ := hasc
        exact ⟨c, hc, hl⟩
      rcases Lex.expected_or (toks := toks) (input := input) (out := out') fun p hp =>
        let ⟨_, _, _, _, q, hq⟩ := h5 p hp
        ⟨q, hq⟩ with h | h
      · exact .inl h
      · exact .inr ⟨h, hex⟩

/-- A nullable token: no empty token is emitted for it. -/
example : ∃ lx, Lex.fromTokens (fun _ l => l) [(tok "as", .rep .zeroOrMore (.lit 97))] = .ok lx ∧
    lx.lex " aa b".toList = .ok [⟨"as".toList, none⟩] := ⟨_, rfl, by rfl⟩

/-! ## C14 -/

/-- C14, partial (ASCII input, ranges that are atoms).  A blank no token can start
with is dropped; in every other case the first token, if there is one, starts at
the first character; and after a token that no further input can extend, lexing
starts afresh. -/
theorem C14_blanks_partial {toks : List (TokenDef × Hir)} {lx : Lex} {ord : Nfa.Order}
    (ho : Reorders ord) (h : Lex.fromTokens ord toks = .ok lx) (ha : AtomsOk (toks.map Prod.snd))
    (hv : ∀ p ∈ toks, NonVoid p.2) :
    (∀ c rest, (∀ x ∈ c :: rest, x.toNat < 128) → Blank c → ¬ Viable toks [c] →
      lx.lex (c :: rest) = lx.lex rest) ∧
    (∀ c rest, (∀ x ∈ c :: rest, x.toNat < 128) → ¬ (Blank c ∧ ¬ Viable toks [c]) →
      lx.lex (c :: rest) = .ok [] ∨ ∃ i w ts, LongestMatch toks (c :: rest) w ∧ FirstMatch toks w i ∧
        lx.lex (c :: rest) = .ok (tokenOf toks (0, i, w) :: ts)) ∧
    (∀ w i rest, (∀ x ∈ w ++ rest, x.toNat < 128) → LongestMatch toks (w ++ rest) w →
      FirstMatch toks w i → ¬ Viable toks (w ++ rest) →
      lx.lex (w ++ rest) = (lx.lex rest).map fun ts => tokenOf toks (0, i, w) :: ts) := by
  have shift : ∀ (n : Nat) (o : List (Nat × Nat × List Char)),
      (o.map fun p => (p.1 + n, p.2)).map (tokenOf toks) = o.map (tokenOf toks) := by
    intro n o
    rw [List.map_map]
    rfl
  refine ⟨?_, ?_, ?_⟩
  · intro c rest hasc hb hvia
    obtain ⟨o1, d1, h1, e1⟩ := lexes_ascii ho h ha hv (c :: rest) hasc
    obtain ⟨o2, d2, h2, e2⟩ := lexes_ascii ho h ha hv rest fun x hx => hasc x (by simp [hx])
    obtain ⟨rfl, rfl⟩ := Lex.lexes_unique h1 (.blank hb hvia (Lex.lexes_shift h2 1))
    rw [e1, e2, shift]
  · intro c rest hasc hnb
    obtain ⟨o1, d1, h1, e1⟩ := lexes_ascii ho h ha hv (c :: rest) hasc
    cases h1 with
    | blank h3 h4 => exact absurd ⟨h3, h4⟩ hnb
    | tok h3 h4 => exact .inr ⟨_, _, _, h3, h4, e1⟩
    | tokEnd h3 h4 => exact .inr ⟨_, _, _, h3, h4, e1⟩
    | stop => exact .inl e1
  · intro w i rest hasc hl hf hvia
    obtain ⟨o1, d1, h1, e1⟩ := lexes_ascii ho h ha hv (w ++ rest) hasc
    obtain ⟨o2, d2, h2, e2⟩ := lexes_ascii ho h ha hv rest fun x hx => hasc x (by simp [hx])
    have h3 := Lex.lexes_shift h2 w.length
    obtain ⟨rfl, rfl⟩ := Lex.lexes_unique h1 (.tok hl hf rfl hvia h3)
    rw [e1, e2, List.map_cons, shift]
    rfl

/-- C14 for every token list and input: before and between tokens only blanks are
dropped.  (`Pieces` has no other way to skip a character; here read off for the
text before the first token.) -/
theorem C14_only_blanks {toks : List (TokenDef × Hir)} {lx : Lex} {ord : Nfa.Order}
    (ho : Reorders ord) (h : Lex.fromTokens ord toks = .ok lx) (input : Str) (ts : List Token)
    (hl : lx.lex input = .ok ts) (hne : ts ≠ []) :
    ∃ (bs : List Char) (i : Nat) (w rest : List Char), input = bs ++ (w ++ rest) ∧ (∀ c ∈ bs, Blank c) ∧ w ≠ [] ∧
      (∃ p : TokenDef × Hir, toks[i]? = some p ∧ Matches p.2 w ∧ ts.head?.map (·.name) = some p.1.name) := by
  obtain ⟨N, acc, al, D, s0, M⟩ := Lex.fromTokens_made (reorders_ok ho) h
  obtain ⟨out, dr, h1, h2⟩ := Lex.lex_run lx input
  obtain ⟨out', h3, h4⟩ := M.pieces input h1
  rw [h2, h4] at hl
  clear h1 h2 h4
  generalize hfull : input = full at hl
  have key : ∀ {k inp o d}, Pieces toks k inp o d → o ≠ [] →
      ∃ (bs : List Char) (k' i : Nat) (w rest : List Char) (o' : List (Nat × Nat × List Char))
        (p : TokenDef × Hir),
      inp = bs ++ (w ++ rest) ∧ (∀ c ∈ bs, Blank c) ∧ w ≠ [] ∧ toks[i]? = some p ∧
      Matches p.2 w ∧ o = (k', i, w) :: o' := by
    intro k inp o d hp
    induction hp with
    | stop => intro h; exact absurd rfl h
    | @blank k c rest o d hb _ ih =>
      intro hne
      obtain ⟨bs, k', i, w, r, o', p, g1, g2, g3⟩ := ih hne
      refine ⟨c :: bs, k', i, w, r, o', p, by simp [g1], ?_, g3⟩
      intro x hx
      rcases List.mem_cons.mp hx with rfl | hx
      · exact hb
      · exact g2 x hx
    | @tok k w i p rest o d g1 g2 g3 _ _ =>
      intro _
      exact ⟨[], k, i, w, rest, o, p, rfl, by simp, g1, g2, g3, rfl⟩
  have hone : out' ≠ [] := by
    rintro rfl
    cases hl
    exact hne rfl
  obtain ⟨bs, k', i, w, rest, o', p, g1, g2, g3, g4, g5, rfl⟩ := key h3 hone
  refine ⟨bs, i, w, rest, hfull ▸ g1, g2, g3, p, g4, g5, ?_⟩
  simp only [List.mapM_cons] at hl
  cases he : Lex.expected toks full (k', i, w) with
  | error e => simp [he, bind, Except.bind] at hl
  | ok t =>
    cases hm : o'.mapM (Lex.expected toks full) with
    | error e => simp [he, hm, bind, Except.bind] at hl
    | ok ts' =>
      simp only [he, hm, bind, Except.bind, pure, Except.pure, Except.ok.injEq] at hl
      subst hl
      simp only [Lex.expected, g4] at he
      cases hw : p.1.withVal with
      | false => simp only [hw] at he; cases he; rfl
      | true =>
        simp only [hw, if_true] at he
        cases hb : Lex.byteSlice full k' (k' + w.length) with
        | error e => simp [hb, bind, Except.bind] at he
        | ok v => simp only [hb, bind, Except.bind, pure, Except.pure] at he; cases he; rfl

/-- C14, for every input and every list of tokens without void parts, whatever the ranges: at
the start and after each token a character is skipped if and only if it is a blank no
token can start with.  Each token is a text the token matches; the tail that is left starts
with no such blank, or forms with the last token the start of a longer match.  Missing: token
regexes with parts that match nothing at all (`C14_false`). -/
theorem C14_exact_partial {toks : List (TokenDef × Hir)} {lx : Lex} {ord : Nfa.Order}
    (ho : Reorders ord) (h : Lex.fromTokens ord toks = .ok lx) (hv : ∀ p ∈ toks, NonVoid p.2)
    (input : Str) :
    ∃ out dropped, Skips toks 0 input out dropped ∧
      ∀ ts, lx.lex input = .ok ts ↔ List.Forall₂ (Carries toks input) out ts := by
  obtain ⟨N, acc, al, D, s0, M⟩ := Lex.fromTokens_made (reorders_ok ho) h
  obtain ⟨out, dr, h1, h2⟩ := Lex.lex_run lx input
  obtain ⟨out', h3, _, h4⟩ := M.skips hv input h1
  refine ⟨out', dr, h3, fun ts => ?_⟩
  rw [h2, h4, Lex.mapM_iff]
  simp only [Lex.expected_iff]

/-- Tokens ` [^\\s\\S]` (which matches nothing) and `x`. -/
def voidToks : List (TokenDef × Hir) := [(tok "v", .concat [.lit 32, .cls []]), (tok "x", .lit 120)]

/-- C14 is false for a token with a void part: no token can start with a blank, but the blank
is not skipped. -/
theorem C14_false : ∃ lx, Lex.fromTokens (fun _ l => l) voidToks = .ok lx ∧
    ¬ Viable voidToks [' '] ∧ lx.lex " x".toList = .ok [] ∧
    lx.lex "x".toList = .ok [⟨"x".toList, none⟩] := by
  refine ⟨_, rfl, ?_, by rfl, by rfl⟩
  rintro ⟨v, p, hp, hm⟩
  simp only [voidToks, List.mem_cons, List.not_mem_nil, or_false] at hp
  rcases hp with rfl | rfl
  · generalize [' '] ++ v = w at hm
    cases hm with
    | concatCons _ h2 =>
      cases h2 with
      | concatCons h3 _ => cases h3; simp_all
  · generalize hw : [' '] ++ v = w at hm
    cases hm with
    | lit hc =>
      simp only [List.cons_append, List.nil_append, List.cons.injEq] at hw
      obtain ⟨rfl, _⟩ := hw
      exact absurd hc (by decide)

example : ∃ lx, Lex.fromTokens (fun _ l => l) badToks = .ok lx ∧ (∀ p ∈ badToks, NonVoid p.2) ∧
    lx.lex " c\nd".toList = .ok [⟨"d".toList, none⟩, ⟨"d".toList, none⟩] := by
  refine ⟨_, rfl, ?_, by rfl⟩
  intro p hp
  simp only [badToks, List.mem_cons, List.not_mem_nil, or_false] at hp
  rcases hp with rfl | rfl | rfl | rfl
  · exact .lit 'c'
  · exact .cls (by simp) fun r hr => ⟨'b', by simp_all⟩
  · exact .cls (by simp) fun r hr => ⟨'c', by simp_all⟩
  · exact .cls (by simp) fun r hr => ⟨'d', by simp_all⟩

/-- A token that starts with a blank: the blank is kept for it. -/
example : ∃ lx, Lex.fromTokens (fun _ l => l)
      [(tok "sp", .concat [.lit 32, .lit 97]), (tok "b", .lit 98)] = .ok lx ∧
    lx.lex "\nb ab".toList = .ok [⟨"b".toList, none⟩, ⟨"sp".toList, none⟩, ⟨"b".toList, none⟩] :=
  ⟨_, rfl, by rfl⟩

/-! ## C15 -/

/-- C15, partial: the exact rule for the text that is dropped.  The input is the
returned pieces, skipped blanks, and a tail `dropped`; the tail is empty, or
starts where no token matches and no blank may be skipped, or follows a last
token with which it forms an incomplete longer match. -/
theorem C15_dropped_partial {toks : List (TokenDef × Hir)} {lx : Lex} {ord : Nfa.Order}
    (ho : Reorders ord) (h : Lex.fromTokens ord toks = .ok lx) (ha : AtomsOk (toks.map Prod.snd))
    (hv : ∀ p ∈ toks, NonVoid p.2) (input : Str) (hasc : ∀ c ∈ input, c.toNat < 128) :
    ∃ out dropped, lx.lex input = .ok (out.map (tokenOf toks)) ∧ Pieces toks 0 input out dropped ∧
      (dropped = [] ∨
       (∃ c rest, dropped = c :: rest ∧
         (∀ v, v ≠ [] → (∃ r, dropped = v ++ r) → ∀ p ∈ toks, ¬ Matches p.2 v) ∧
         ¬ (Blank c ∧ ¬ Viable toks [c])) ∨
       (∃ k i w, out.getLast? = some (k, i, w) ∧ Viable toks (w ++ dropped))) := by
  obtain ⟨out, dr, h1, h2⟩ := lexes_ascii ho h ha hv input hasc
  exact ⟨out, dr, h2, Lex.lexes_pieces h1, Lex.lexes_dropped h1⟩

/-- Tokens `a`, `abc`, `b`. -/
def dropToks : List (TokenDef × Hir) :=
  [(tok "a", .lit 97), (tok "abc", .concat [.lit 97, .lit 98, .lit 99]), (tok "b", .lit 98)]

/-- C15 is false of the code: `ab` lexes as `a` alone although `b` is a token, and
in `a?b` everything from the `?` on is dropped without an error. -/
theorem C15_false : ∃ lx, Lex.fromTokens (fun _ l => l) dropToks = .ok lx ∧
    lx.lex "ab".toList = .ok [⟨"a".toList, none⟩] ∧
    lx.lex "b".toList = .ok [⟨"b".toList, none⟩] ∧
    lx.lex "a?b".toList = .ok [⟨"a".toList, none⟩] :=
  ⟨_, rfl, by rfl, by rfl, by rfl⟩

end Verif.Props
