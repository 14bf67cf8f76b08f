import Verif.Proofs.GeneratedOk
import Verif.Props.TsPipeline

/-! # Property C48: the generated files read back -/

namespace Verif.Props
open Verif Spec

theorem lexNames_plain {toks : List (TokenDef × Hir)} {lx : Lex} {ord : Nfa.Order} (ho : Reorders ord)
    (h : Lex.fromTokens ord toks = .ok lx) (hp : ∀ p ∈ toks, Plain2 p.1.name) :
    ∀ e ∈ (LexGen.Tables.new lx).tokens, Plain2 e.2.1 := by
  obtain ⟨N, acc, al, D, s0, M⟩ := Lex.fromTokens_made (reorders_ok ho) h
  intro e he
  rcases mem_foldl_minsert he with he | he
  · simp only [LexGen.tokenEntries, List.mem_flatMap, List.mem_filterMap] at he
    obtain ⟨kv, hkv, i, _, hi⟩ := he
    rw [M.comb.tokens] at hkv
    obtain ⟨j, hj, rfl⟩ := List.mem_map.mp hkv
    split at hi
    · split at hi
      · simp only [Option.some.injEq] at hi
        subst hi
        simp only
        have hj' : j < (toks.map Prod.fst).length := by simpa using hj
        rw [List.getD_eq_getElem?_getD, List.getElem?_eq_getElem hj', Option.getD_some, List.getElem_map]
        exact hp _ (List.getElem_mem _)
      · cases hi
    · cases hi
  · cases he

/-- C48, lexer.  For tokens whose names have no double quote, backslash or line
break, the text of the generated lexer file reads, by the grammar of the TypeScript
type declarations, as exactly the tables `C35_tables` is about. -/
theorem C48_lexer {toks : List (TokenDef × Hir)} {lx : Lex} {ord : Nfa.Order} (ho : Reorders ord)
    (h : Lex.fromTokens ord toks = .ok lx) (hp : ∀ p ∈ toks, Plain2 p.1.name) :
    (readText (LexGen.Tables.new lx).text).bind lexTables = some (LexGen.Tables.new lx) := by
  have hn := lexNames_plain ho h hp
  obtain ⟨N, acc, al, D, s0, M⟩ := Lex.fromTokens_made (reorders_ok ho) h
  rw [readText_of (scan_lexText hn) (read_lexToks _)]
  exact lexTables_eq (Sorted.nodup (msorted_foldl_minsert (by simp [MSorted, Sorted]))) (Sorted.nodup M.built.spec.msorted)

/-- What the text of the parser file can carry: nonterminals are words, terminals
have no quotes, backslashes or line breaks. -/
structure PlainGrammar (ps : List Ast.Prod) : Prop where
  heads : ∀ p ∈ ps, WordName p.name
  refs : ∀ p ∈ ps, ∀ b ∈ p.bodies, ∀ s ∈ b.inputs, ∀ n, s.lower = .nonTerm n → WordName n
  terms : ∀ p ∈ ps, ∀ b ∈ p.bodies, ∀ s ∈ b.inputs, IsTerm s.lower → PlainName (spelling s.lower)

/-- Identifiers of grammar files satisfy the condition on nonterminals. -/
theorem C48_identifiers {s : Str} (h : Matches GrammarFile.ident s) : WordName s := ident_word h

section
variable {H : Type} [DecidableEq H] {hash : List Item → H} {rx : Str → Option Hir} {ord : Nfa.Order}
  {ps : List Ast.Prod} {start : Ast.Prod} {g : Grammar} {l : Lalr} {T : ParseGen.Tables}

theorem PlainGrammar.tokens (hp : PlainGrammar ps) (hG : Generated hash rx ord ps start g l) {s : Sym} (hs : s ∈ g.tokens) :
    (∀ n, s = .nonTerm n → WordName n) ∧ (IsTerm s → PlainName (spelling s)) := by
  obtain ⟨g', h1, h2, h3, h4, h5⟩ := Grammar.fromAst_spec hG.first
  rw [hG.ast] at h1
  cases h1
  rw [h5, List.mem_cons, mem_ofList, h4, List.flatMap_cons, List.mem_append, List.mem_singleton] at hs
  rcases hs with rfl | rfl | hs
  · simp [IsTerm]
  · refine ⟨fun n hn => ?_, False.elim⟩
    cases hn
    exact hp.heads start (List.mem_of_find?_eq_some hG.first)
  · simp only [List.mem_flatMap, List.mem_map] at hs
    obtain ⟨_, ⟨p, hpp, b, hb, rfl⟩, hs⟩ := hs
    obtain ⟨t, ht, rfl⟩ := List.mem_map.mp hs
    exact ⟨fun n hn => hp.refs p hpp b hb t ht n hn, hp.terms p hpp b hb t ht⟩

theorem PlainGrammar.prodName (hp : PlainGrammar ps) (hG : Generated hash rx ord ps start g l) {p : Production} (hs : p ∈ g.prods) :
    Plain2 p.name := by
  obtain ⟨g', h1, h2, h3, h4, h5⟩ := Grammar.fromAst_spec hG.first
  rw [hG.ast] at h1
  cases h1
  rw [h4] at hs
  rcases List.mem_cons.mp hs with rfl | hs
  · intro c hc
    rcases List.mem_append.mp hc with hc | hc
    · exact (hp.heads start (List.mem_of_find?_eq_some hG.first)).plain c hc
    · rw [List.mem_singleton.mp hc]; decide
  · simp only [List.mem_flatMap, List.mem_map] at hs
    obtain ⟨q, hq, b, hb, rfl⟩ := hs
    exact (hp.heads q hq).plain

theorem PlainGrammar.writable (hp : PlainGrammar ps) (hG : Generated hash rx ord ps start g l) (hT : ParseGen.generate ps l = .ok T) :
    WritableNames T g.tokens := by
  have hok := Grammar.gok_of_fromAst hG.expr hG.ast
  obtain ⟨e0, _, e7⟩ := new_ok hG.new
  obtain ⟨e1, e2, e3, e4, e5, e6⟩ := ParseGen.generate_fields hT
  rw [e0] at e2 e5 e6
  obtain ⟨r1, r2⟩ := Lalr.makeTables_rows e7
  have e8 := ParseGen.genProductions_spec hok e2
  refine ⟨?_, ?_, ?_, ?_, ?_⟩
  · rw [e1]
    intro s hs
    obtain ⟨p, hpp, rfl⟩ := List.mem_map.mp hs
    exact hp.heads p hpp
  · intro s hs k v hv
    have := hp.tokens hG hs
    cases s <;> simp only [ParseGen.tokenKind, Option.some.injEq, Prod.mk.injEq, reduceCtorEq] at hv
    · obtain ⟨_, rfl⟩ := hv; exact (this.2 trivial).two
    · obtain ⟨_, rfl⟩ := hv; exact (this.1 _ rfl).plain
    · obtain ⟨_, rfl⟩ := hv; exact (this.2 trivial).two
  · intro p hpp
    have h9 : p.1 ∈ (T.productions.map fun e => (e.1, e.2.map (g.tokens[·]?))).map Prod.fst := by
      rw [List.map_map]; exact List.mem_map.mpr ⟨p, hpp, rfl⟩
    rw [e8, List.map_map] at h9
    obtain ⟨q, hq, h9⟩ := List.mem_map.mp h9
    rw [← h9]
    exact hp.prodName hG hq
  · rw [e4]
    intro r hr e he
    have := (r2.2 r hr).2 e he
    simp only [Grammar.nonTerminals, List.mem_filterMap] at this
    obtain ⟨s, hs, h9⟩ := this
    cases s <;> simp only [Sym.asNonTerminal, Option.some.injEq, reduceCtorEq] at h9
    exact (hp.tokens hG hs).1 _ (by rw [h9])
  · rw [e5]
    intro e he
    obtain ⟨s, h9, h10, h11⟩ := ParseGen.mem_genKinds.mp (show (e.1, e.2) ∈ ParseGen.genKinds g from he)
    have hm := List.mem_of_getElem? h9
    rw [h11]
    rcases h10 with h10 | rfl
    · have := (hp.tokens hG hm).2 h10
      cases s <;> first | exact this | exact False.elim h10
    · decide

/-- C48, parser.  The text of the module `type_defs` of the generated parser file
reads as tables with: the nonterminals of the grammar in order; the terminals and
nonterminals under their numbers; the productions with left side and the numbers of
the right side, the augmented one first; the ACTION and GOTO tables of the Rust
parser; and for each terminal, and EOF, its number under its spelling. -/
theorem C48_parser (hG : Generated hash rx ord ps start g l) (hT : ParseGen.generate ps l = .ok T) (hk : DistinctKinds g)
    (hp : PlainGrammar ps) :
    ∃ td, (readText (T.typeDefsText g.tokens)).bind typeDefs = some td ∧
      td.symbols = ps.map (·.name) ∧ td.tokens = g.tokens ∧ td.action = l.action ∧ td.goto = l.goto ∧
      td.productions.map (fun e => (e.1, e.2.map (g.tokens[·]?))) =
        (start.name ++ ['\''], [some (.nonTerm start.name)]) ::
          ps.flatMap (fun p => p.bodies.map fun b => (p.name, b.inputs.map fun s => some s.lower)) ∧
      ∀ kind idx, (kind, idx) ∈ td.kindToIdx ↔ ∃ s, g.tokens[idx]? = some s ∧
        (IsTerm s ∧ spelling s = kind ∨ s = .eof ∧ kind = "EOF".toList) := by
  have hok := Grammar.gok_of_fromAst hG.expr hG.ast
  obtain ⟨e0, _, e7⟩ := new_ok hG.new
  obtain ⟨e1, e2, e3, e4, e5, e6⟩ := ParseGen.generate_fields hT
  rw [e0] at e2 e5 e6
  obtain ⟨r1, r2⟩ := Lalr.makeTables_rows e7
  have e8 := ParseGen.genProductions_spec hok e2
  have hw := hp.writable hG hT
  have hd : DistinctRows T := by
    refine ⟨?_, ?_, ?_, ?_, ?_⟩
    · rw [e3]; exact Sorted.nodup r1.1
    · rw [e3]; exact fun r hr => Sorted.nodup (r1.2 r hr).1
    · rw [e4]; exact Sorted.nodup r2.1
    · rw [e4]; exact fun r hr => Sorted.nodup (r2.2 r hr).1
    · rw [e5]; exact ParseGen.kinds_nodup hok hk
  refine ⟨⟨T.symbols, g.tokens, T.productions, T.action, T.goto, T.kindToIdx⟩, by rw [readText_of (scan_typeDefs hw) (read_typeDefsToks T g.tokens)]; exact typeDefs_eq hd e6, e1, rfl, e3, e4, ?_, ?_⟩
  · simp only [e8]
    obtain ⟨g', h1, h2, h3, h4, h5⟩ := Grammar.fromAst_spec hG.first
    rw [hG.ast] at h1
    cases h1
    rw [h4]
    simp [Grammar.fromAstBody, List.map_flatMap, Function.comp_def]
  · intro kind idx
    simp only [e5]
    rw [ParseGen.mem_genKinds]
    refine exists_congr fun s => and_congr_right fun _ => ?_
    cases s <;> simp [IsTerm, ParseGen.keyOf, spelling, eq_comm]

end

theorem charMap_breakless : Breakless LexGen.charMap := by
  rw [LexGen.charMap_eq]
  unfold Breakless
  decide +kernel

/-- C48, characters.  The text of the generated character file reads as the table of
exactly the characters up to U+00FF other than tab, vertical tab, form feed, carriage
return, delete, no-break space and soft hyphen, each with its own code, and as the
inverse table. -/
theorem C48_chars : ∃ ds tab inv, readText (LexGen.charsText LexGen.charMap) = some ds ∧
    charTable ds = some tab ∧ characters ds = some inv ∧
    ∀ s n, ((s, n) ∈ tab ↔ ∃ c : Char, s = [c] ∧ c.toNat = n ∧ n < 256 ∧ n ∉ [9, 11, 12, 13, 127, 160, 173]) ∧
      ((n, s) ∈ inv ↔ (s, n) ∈ tab) := by
  have h1 := charMap_breakless
  have h2 : (LexGen.charMap.map Prod.snd).Nodup := by rw [LexGen.charMap_eq]; decide +kernel
  have h3 : (LexGen.charMap.map fun e => Char.ofNat e.1).Nodup := by rw [LexGen.charMap_eq]; decide +kernel
  obtain ⟨h4, h5⟩ := charTables_eq h2 h3
  refine ⟨_, _, _, readText_of (scan_chars h1) (read_charsToks _), h4, h5, fun s n => ⟨?_, ?_⟩⟩
  · rw [LexGen.charMap_eq]
    simp only [List.map_map, List.mem_map, LexGen.shownChars, List.mem_filter, List.mem_range, decide_eq_true_eq, Function.comp,
      Prod.mk.injEq]
    constructor
    · rintro ⟨m, ⟨hm, hi⟩, rfl, rfl⟩
      refine ⟨Char.ofNat m, rfl, ?_, hm, hi⟩
      have : ∀ m, m < 256 → (Char.ofNat m).toNat = m := by decide +kernel
      exact this m hm
    · rintro ⟨c, rfl, rfl, hm, hi⟩
      exact ⟨c.toNat, ⟨hm, hi⟩, by rw [Char.ofNat_toNat], rfl⟩
  · simp only [List.mem_map, Prod.mk.injEq]
    exact exists_congr fun e => and_congr_right fun _ => And.comm

/-! ## Samples -/

-- C48, lexer: the tokens `if`, `[a-z]+`, `(a|bc*)+`.
example : (∃ lx, Lex.fromTokens (fun _ l => l) sampleToks = .ok lx ∧ 6 < (LexGen.Tables.new lx).states.length) ∧
    Reorders (fun _ l => l) ∧ ∀ p ∈ sampleToks, Plain2 p.1.name :=
  ⟨⟨_, rfl, by decide⟩, reorders_id, by unfold Plain2; decide +kernel⟩

/-- A check for `PlainGrammar`. -/
def plainGrammarB (ps : List Ast.Prod) : Bool :=
  ps.all fun p => wordB p.name && p.bodies.all fun b => b.inputs.all fun s => match s.lower with
    | .nonTerm n => wordB n
    | .strLit n => decide (PlainName n)
    | .regex n => decide (PlainName n)
    | _ => true
where
  wordB : Str → Bool
    | [] => false
    | c :: w => isWordStart c && w.all isWordChar

theorem plainGrammarB_sound {ps : List Ast.Prod} (h : plainGrammarB ps = true) : PlainGrammar ps := by
  have hw : ∀ s, plainGrammarB.wordB s = true → WordName s := by
    intro s hs
    cases s with
    | nil => cases hs
    | cons c w =>
      simp only [plainGrammarB.wordB, Bool.and_eq_true, List.all_eq_true] at hs
      exact ⟨c, w, rfl, hs.1, hs.2⟩
  simp only [plainGrammarB, List.all_eq_true, Bool.and_eq_true] at h
  refine ⟨fun p hp => hw _ (h p hp).1, fun p hp b hb s hs n hn => ?_, fun p hp b hb s hs ht => ?_⟩
  · have := (h p hp).2 b hb s hs
    rw [hn] at this
    exact hw _ this
  · have := (h p hp).2 b hb s hs
    cases e : s.lower <;> rw [e] at this ht <;> first | exact False.elim ht | exact of_decide_eq_true this

theorem word_plain : PlainGrammar wordAst := plainGrammarB_sound (by decide +kernel)

-- C48, parser: the hypotheses for `wordAst`, and some of what its text reads as.
example : Generated id wordRx (fun _ l => l) wordAst (startOf wordAst) (lower wordAst) wordL ∧
    ParseGen.generate wordAst wordL = .ok wordT ∧ DistinctKinds (lower wordAst) ∧ PlainGrammar wordAst ∧
    (∃ td, (readText (wordT.typeDefsText (lower wordAst).tokens)).bind typeDefs = some td ∧
      td.symbols = ["S".toList, "W".toList] ∧
      td.productions = [("S'".toList, [3]), ("S".toList, [1, 4]), ("S".toList, [2]), ("W".toList, [5])] ∧
      td.kindToIdx = [("EOF".toList, 0), ("x".toList, 1), ("y".toList, 2), ("[a-w]+".toList, 5)]) :=
  ⟨word_generated, word_emitted.tables, word_kinds, word_plain, by
    rw [readText_of (ds := typeDefsDecls wordT (lower wordAst).tokens) (toks := typeDefsToks wordT (lower wordAst).tokens)
      (by decide +kernel) (read_typeDefsToks _ _)]
    exact ⟨_, typeDefs_eq (by constructor <;> decide +kernel) (by decide +kernel), by decide +kernel, by decide +kernel, by decide +kernel⟩⟩

/-- `S → "'"`. -/
def quoteAst : List Ast.Prod :=
  [⟨"S".toList, [⟨[.strLit "'".toList], "0".toList⟩], true, "T".toList⟩]

/-- The generated parser and its tables. -/
def quoteL : Lalr := (Lalr.new id (fun _ => none) (fun _ l => l) (lower quoteAst)).toOption.getD
  ⟨⟨[], [], [], []⟩, ⟨⟨[], [], [], []⟩, [], []⟩, [], [], []⟩

/-- The generated tables. -/
def quoteT : ParseGen.Tables := (ParseGen.generate quoteAst quoteL).toOption.getD ⟨[], [], [], [], [], []⟩

/-- Without the condition on terminals C48 is false: the literal `'` makes the
generated file no sequence of type declarations at all. -/
theorem C48_false_quote : Generated id (fun _ => none) (fun _ l => l) quoteAst (startOf quoteAst) (lower quoteAst) quoteL ∧
    ParseGen.generate quoteAst quoteL = .ok quoteT ∧
    readText (quoteT.typeDefsText (lower quoteAst).tokens) = none :=
  ⟨⟨expressibleB_sound (by decide +kernel), startOf_eq (by decide +kernel), ok_of_isSome (by decide +kernel),
      ok_of_isSome (by decide +kernel)⟩, ok_of_isSome (by decide +kernel), by decide +kernel⟩

/-- The generated parser. -/
def twiceL : Lalr := (Lalr.new id twiceRx (fun _ l => l) (lower twiceAst)).toOption.getD
  ⟨⟨[], [], [], []⟩, ⟨⟨[], [], [], []⟩, [], []⟩, [], [], []⟩

/-- The generated tables. -/
def twiceT : ParseGen.Tables := (ParseGen.generate twiceAst twiceL).toOption.getD ⟨[], [], [], [], [], []⟩

/-- Without distinct spellings C48 is false: in `S → "a" /a/` the literal and the
regex spelled alike give a type with the same member twice. -/
theorem C48_false_twice : Generated id twiceRx (fun _ l => l) twiceAst (startOf twiceAst) (lower twiceAst) twiceL ∧
    ParseGen.generate twiceAst twiceL = .ok twiceT ∧ PlainGrammar twiceAst ∧
    (∃ ds, readText (twiceT.typeDefsText (lower twiceAst).tokens) = some ds ∧
      declOf ds "TokenKindToIdx".toList = some (.obj [(.name "EOF".toList, .num 0), (.name "a".toList, .num 1), (.name "a".toList, .num 3)]) ∧
      typeDefs ds = none) := by
  refine ⟨⟨expressibleB_sound (by decide +kernel), startOf_eq (by decide +kernel), ok_of_isSome (by decide +kernel),
      ok_of_isSome (by decide +kernel)⟩, ok_of_isSome (by decide +kernel),
      plainGrammarB_sound (by decide +kernel), typeDefsDecls twiceT (lower twiceAst).tokens, ?_, ?_, ?_⟩
  · exact readText_of (toks := typeDefsToks twiceT (lower twiceAst).tokens) (by decide +kernel) (read_typeDefsToks _ _)
  · rfl
  · decide +kernel

end Verif.Props
