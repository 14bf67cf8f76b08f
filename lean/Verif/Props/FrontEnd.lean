import Verif.Proofs.FrontSpell
import Verif.Props.Generated

/-! # Properties of grammar files (C49-C51) -/

namespace Verif.Props
open Verif Spec FrontEnd

/-! ## C49 -/

/-- C49.  `parse_grammar` returns exactly the productions that the grammar of grammar
files gives to the text, cut into tokens by longest match. -/
theorem C49_reads (text : Str) (ps : List Ast.Prod) :
    parseGrammar text = .ok ps ↔ ∃ ts, Cut text ts ∧ IsProgram ts ps := parseGrammar_iff

/-- C49.  On every other text it panics with a syntax error. -/
theorem C49_refuses (text : Str) :
    parseGrammar text = .error .syntaxError ↔ ¬ ∃ ts ps, Cut text ts ∧ IsProgram ts ps := by
  constructor
  · rintro h ⟨ts, ps, h1, h2⟩
    rw [(C49_reads text ps).mpr ⟨ts, h1, h2⟩] at h
    cases h
  · intro h
    cases hp : parseGrammar text with
    | ok ps =>
      obtain ⟨ts, h1, h2⟩ := (C49_reads text ps).mp hp
      exact absurd ⟨ts, ps, h1, h2⟩ h
    | error e => rw [parseGrammar_error hp]

/-- C49.  A text has at most one cutting and at most one reading. -/
theorem C49_unique {text : Str} {ts ts' : List Tok} {ps ps' : List Ast.Prod} (h : Cut text ts) (h' : Cut text ts')
    (hp : IsProgram ts ps) (hp' : IsProgram ts' ps') : ts = ts' ∧ ps = ps' := by
  have e1 := tokens_iff.mpr h
  rw [tokens_iff.mpr h'] at e1
  have e2 := (C49_reads text ps).mpr ⟨ts, h, hp⟩
  rw [(C49_reads text ps').mpr ⟨ts', h', hp'⟩] at e2
  cases e1
  cases e2
  exact ⟨rfl, rfl⟩

/-- C49.  A code block ends at the last closing parenthesis of its line: what stands
between two code blocks on one line is taken for code. -/
theorem C49_greedy {a b : Str} {ts : List Tok} (ha : '\n' ∉ a) (hb : ')' ∉ b.takeWhile (· ≠ '\n'))
    (h : Cut ('(' :: (a ++ ')' :: b)) ts) : ∃ rest, ts = .code ('(' :: (a ++ [')'])) :: rest ∧ Cut b rest := by
  have hm : Matches GrammarFile.tsCode ('(' :: (a ++ [')'])) := tsCode_iff.mpr ⟨a, ha, rfl⟩
  have hl : Longest 1 ('(' :: (a ++ [')'])) b := by
    refine ⟨⟨_, rfl, hm⟩, fun t ht v r e hv => ?_, fun j t hj hj' hm' => ?_⟩
    · cases v with
      | nil => simp
      | cons c v =>
        have hc : c = '(' := by simp at e; exact e.1.symm
        subst hc
        have lits : ∀ {s : String}, Matches (literal s) ('(' :: v) → s.toList.head? ≠ some '(' → False :=
          fun h1 h2 => h2 (by rw [← literal_iff.mp h1]; rfl)
        simp only [terminals, List.mem_cons, List.not_mem_nil, or_false] at ht
        rcases ht with rfl | rfl | rfl | rfl | rfl | rfl | rfl | rfl | rfl | rfl | rfl | rfl | rfl | rfl
        · exact absurd (quoted_head hv) (by simp)
        · obtain ⟨t, hn, e'⟩ := tsCode_iff.mp hv
          simp only [List.cons.injEq, true_and] at e'
          subst e'
          refine Nat.le_of_not_lt fun hlt => hb ?_
          simp only [List.length_cons, List.length_append, List.length_nil] at hlt
          simp only [List.cons_append, List.append_assoc, List.nil_append, List.cons.injEq, true_and] at e
          obtain ⟨u, rfl⟩ : ∃ u, t = a ++ ')' :: u := by
            have h1 : (a ++ [')']) <+: (a ++ ')' :: b) := ⟨b, by simp⟩
            have h2 : t <+: (a ++ ')' :: b) := ⟨')' :: r, e.symm⟩
            obtain ⟨u, hu⟩ := List.prefix_of_prefix_length_le h1 h2 (by simp; omega)
            exact ⟨u, by rw [← hu]; simp⟩
          simp only [List.append_assoc, List.cons_append, List.append_cancel_left_eq, List.cons.injEq, true_and] at e
          rw [e]
          have hu : ∀ x ∈ u, decide (x ≠ '\n') = true := fun x hx => by
            simp; rintro rfl; exact hn (by simp [hx])
          rw [List.takeWhile_append_of_pos hu]
          simp
        · obtain ⟨c, s, e', hc, _⟩ := ident_iff.mp hv
          cases e'
          exact absurd hc (by decide)
        all_goals exact (lits hv (by decide)).elim
    · have lits : ∀ {s : String}, Matches (literal s) ('(' :: (a ++ [')'])) → s.toList.head? ≠ some '(' → False :=
        fun h1 h2 => h2 (by rw [← literal_iff.mp h1]; rfl)
      match j, hj, hj' with
      | 2, _, hj' =>
        cases hj'
        obtain ⟨c, s, e', hc, _⟩ := ident_iff.mp hm'
        cases e'
        exact absurd hc (by decide)
      | 3, _, hj' | 4, _, hj' | 5, _, hj' | 6, _, hj' | 7, _, hj' | 8, _, hj' | 9, _, hj' | 10, _, hj' | 11, _, hj'
      | 12, _, hj' | 13, _, hj' => cases hj'; exact lits hm' (by decide)
      | _ + 14, _, hj' => cases hj'
  have e : '(' :: (a ++ ')' :: b) = '(' :: (a ++ [')']) ++ b := by simp
  rw [e] at h
  have h1 := tokens_iff.mpr h
  cases hr : tokens b.length b with
  | ok rest =>
    have h2 : Cut b rest := tokens_iff.mp hr
    have h3 : Cut ('(' :: (a ++ [')']) ++ b) (.code ('(' :: (a ++ [')'])) :: rest) :=
      .token (h := GrammarFile.tsCode) (mk := .code) hl rfl h2
    rw [tokens_iff.mpr h3] at h1
    cases h1
    exact ⟨rest, rfl, h2⟩
  | error err =>
    exfalso
    generalize hs : '(' :: (a ++ [')']) ++ b = s at h
    cases h with
    | nil => simp at hs
    | space hw _ => simp at hs; rw [← hs.1] at hw; exact not_white (by decide) hw
    | token hl' ht' h' =>
      rename_i w rest ts mk hir
      have p1 := pick_longest hl (mk := .code) rfl
      have p2 := pick_longest hl' ht'
      rw [hs, p2] at p1
      simp only [Option.some.injEq, Prod.mk.injEq] at p1
      obtain ⟨rfl, _⟩ := List.append_inj hs p1.2.symm
      have := List.append_cancel_left hs
      subst this
      rw [tokens_iff.mpr h'] at hr
      cases hr

/-! ## C50 -/

/-- C50.  The grammars that some grammar file denotes are exactly the `Writable` ones:
one or more productions, names that are identifiers other than `export`, `start` and
`r`, no empty bodies, quotable texts, code without line breaks. -/
theorem C50_writable (ps : List Ast.Prod) : (∃ text, parseGrammar text = .ok ps) ↔ Writable ps := written_iff

/-! ## C51 -/

theorem plainSym_lower {s : Ast.InSym} (h : PlainSym s) : (∃ t, Quotable t ∧ (s.lower = .strLit t ∨ s.lower = .regex t)) ∨
    ∃ n, IdentName n ∧ s.lower = .nonTerm n := by
  cases h with
  | lit h => exact .inl ⟨_, h, .inl rfl⟩
  | regex h => exact .inl ⟨_, h, .inr rfl⟩
  | nonTerm h => exact .inr ⟨_, h, rfl⟩

theorem writableSym_lower {s : Ast.InSym} (h : WritableSym s) :
    (∃ t, Quotable t ∧ (s.lower = .strLit t ∨ s.lower = .regex t)) ∨ ∃ n, IdentName n ∧ s.lower = .nonTerm n := by
  cases h with
  | plain h => exact plainSym_lower h
  | named _ h =>
    have := plainSym_lower h
    exact this

theorem ident_no_quote {n : Str} (h : IdentName n) : '\'' ∉ n := by
  obtain ⟨c, s, rfl, hc, hs⟩ := ident_iff.mp h.1
  intro hm
  rcases List.mem_cons.mp hm with e | e
  · rw [← e] at hc; exact absurd hc (by decide)
  · exact absurd (hs _ e) (by decide)

/-- C51.  Every grammar read from a file meets the condition on grammars under which
the other properties are proved; named symbols have a name and are not nested; and
names of nonterminals are TypeScript words. -/
theorem C51_expressible {text : Str} {ps : List Ast.Prod} (h : parseGrammar text = .ok ps) :
    Expressible ps ∧ (∀ p ∈ ps, ∀ b ∈ p.bodies, ∀ n ty, Ast.InSym.named n ty ∈ b.inputs → n ≠ none ∧ ∀ m t, ty ≠ .named m t) ∧
      (∀ p ∈ ps, WordName p.name) ∧ ∀ p ∈ ps, ∀ b ∈ p.bodies, ∀ s ∈ b.inputs, ∀ n, s.lower = .nonTerm n → WordName n := by
  have hw := (C50_writable ps).mp ⟨text, h⟩
  refine ⟨fun p hp => ⟨ident_no_quote (hw.name p hp), fun b hb => ⟨(hw.inputs p hp b hb).1, fun s hs => ?_⟩⟩,
    fun p hp b hb n ty hm => ?_, fun p hp => ident_word (hw.name p hp).1, fun p hp b hb s hs n hn => ?_⟩
  · rcases writableSym_lower ((hw.inputs p hp b hb).2 s hs) with ⟨t, _, e | e⟩ | ⟨n, hn, e⟩ <;> rw [e]
    · simp
    · simp
    · exact ⟨by simp, by simp, fun A hA => by cases hA; exact ident_no_quote hn⟩
  · cases (hw.inputs p hp b hb).2 _ hm with
    | plain h => cases h
    | named _ h => exact ⟨by simp, fun m t => by rintro rfl; cases h⟩
  · rcases writableSym_lower ((hw.inputs p hp b hb).2 s hs) with ⟨t, _, e | e⟩ | ⟨m, hm, e⟩ <;> rw [e] at hn
    · cases hn
    · cases hn
    · cases hn; exact ident_word hm.1

section
variable {H : Type} [DecidableEq H] {hash : List Item → H} {rx : Str → Option Hir} {ord : Nfa.Order}
  {text : Str} {ps : List Ast.Prod} {start : Ast.Prod} {g : Grammar} {l : Lalr}

/-- C51.  From the text of a grammar file to a parse: if the file is read, has a
start production, and its tables are built, then text the
parser accepts is, but for blanks and a dropped rest, a sequence of strings of the
terminals written in the file that the rules written in the file derive. -/
theorem C51_sentence (h : parseGrammar text = .ok ps) (hs : ps.find? (fun p => p.isStart) = some start)
    (hg : Grammar.fromAst ps = .ok g)
    (hl : Lalr.new hash rx ord g = .ok l) (ho : Reorders ord) (hds : DistinctSpellings g)
    {fuel : Nat} {input : Str} {out : List Nat} (hp : l.parse fuel input = .ok out) :
    ∃ ts ds pieces dropped ws f, Cut text ts ∧ IsProgram ts ps ∧ Declares rx g ds ∧ Pieces ds 0 input pieces dropped ∧
      pieces.map (pieceSym g ds) = ws.map some ∧ Sentence (AstRule ps) start.name ws ∧
      IsTree g.prods start.name f ws ∧ f.post = out := by
  obtain ⟨ts, h1, h2⟩ := (C49_reads text ps).mp h
  obtain ⟨ds, pieces, dropped, ws, f, h3⟩ := C33_sentence ⟨(C51_expressible h).1, hs, hg, hl⟩ ho hds hp
  exact ⟨ts, ds, pieces, dropped, ws, f, h1, h2, h3⟩

theorem quotable_plain {t : Str} (h : Quotable t) (hb : '\\' ∉ t) : '"' ∉ t := by
  induction h with
  | nil => simp
  | backslash _ _ => simp at hb
  | quote _ _ => simp at hb
  | char h1 h2 _ ih => simp at hb ⊢; exact ⟨fun e => h2 e.symm, ih hb.2⟩

/-- C51.  For a grammar read from a file the generated text reads back (C48) as soon
as no terminal has a backslash, an apostrophe or a line break. -/
theorem C51_plain (h : parseGrammar text = .ok ps)
    (ht : ∀ p ∈ ps, ∀ b ∈ p.bodies, ∀ s ∈ b.inputs, IsTerm s.lower →
      '\\' ∉ spelling s.lower ∧ '\'' ∉ spelling s.lower ∧ ∀ c ∈ spelling s.lower, isBreak c = false) : PlainGrammar ps := by
  obtain ⟨_, _, h1, h2⟩ := C51_expressible h
  have hw := (C50_writable ps).mp ⟨text, h⟩
  refine ⟨h1, h2, fun p hp b hb s hs hterm => ?_⟩
  obtain ⟨t1, t2, t3⟩ := ht p hp b hb s hs hterm
  have hq : '"' ∉ spelling s.lower := by
    rcases writableSym_lower ((hw.inputs p hp b hb).2 s hs) with ⟨t, hq, e | e⟩ | ⟨n, hn, e⟩
    · rw [e] at t1 ⊢; exact quotable_plain hq t1
    · rw [e] at t1 ⊢; exact quotable_plain hq t1
    · rw [e] at hterm; exact hterm.elim
  intro c hc
  exact ⟨fun e => hq (e ▸ hc), fun e => t2 (e ▸ hc), fun e => t1 (e ▸ hc), t3 c hc⟩

end

/-! ## Examples -/

/-- The characters of a string literal. -/
local macro "chars!" s:str : term => do
  let cs := s.getString.toList.map fun c => Lean.Syntax.mkCharLit c
  `([$(cs.toArray),*])

/-- The text of basic_lisp.tlalr. -/
def lispText : Str :=
  chars! "export start SExpr: ({ kind: \"SExpr\", exprs: Exprs }) = [\n    \"(\" <exprs: Exprs> \")\" => ({ kind: \"SExpr\", exprs: exprs })\n]\n\nexport Exprs: (Expr[]) = [\n    <eee: Expr> <es: Exprs> => ([eee, ...es]),\n    <eee: Expr> => ([eee])\n]\n\nexport Expr: ({ kind: \"symbol\", value: \"add\" } | { kind: \"int\", value: string } | { kind: \"sexpr\", sexpr: SExpr }) = [ \n    <sexpr: SExpr> => ({ kind: \"sexpr\", sexpr: sexpr }),\n    <str: \"add\"> => ({ kind: \"symbol\", value: str }),\n    <int: r\"[1-9]+[0-9]*\"> => ({ kind: \"int\", value: int })\n]"

/-- Its productions. -/
def lispAst : List Ast.Prod :=
  [⟨"SExpr".toList, [⟨[.strLit "(".toList, .named (some "exprs".toList) (.nonTerm "Exprs".toList), .strLit ")".toList], "{ kind: \"SExpr\", exprs: exprs }".toList⟩], true,
     "{ kind: \"SExpr\", exprs: Exprs }".toList⟩,
   ⟨"Exprs".toList, [⟨[.named (some "eee".toList) (.nonTerm "Expr".toList), .named (some "es".toList) (.nonTerm "Exprs".toList)], "[eee, ...es]".toList⟩, ⟨[.named (some "eee".toList) (.nonTerm "Expr".toList)], "[eee]".toList⟩], false,
     "Expr[]".toList⟩,
   ⟨"Expr".toList, [⟨[.named (some "sexpr".toList) (.nonTerm "SExpr".toList)], "{ kind: \"sexpr\", sexpr: sexpr }".toList⟩,
      ⟨[.named (some "str".toList) (.strLit "add".toList)], "{ kind: \"symbol\", value: str }".toList⟩,
      ⟨[.named (some "int".toList) (.regex "[1-9]+[0-9]*".toList)], "{ kind: \"int\", value: int }".toList⟩], false,
     "{ kind: \"symbol\", value: \"add\" } | { kind: \"int\", value: string } | { kind: \"sexpr\", sexpr: SExpr }".toList⟩]

/-- The regex crate on the one regex of `lispAst`. -/
def lispRx (s : Str) : Option Hir :=
  if s = "[1-9]+[0-9]*".toList then some (.concat [.rep .oneOrMore (.cls [(49, 57)]), .rep .zeroOrMore (.cls [(48, 57)])]) else none

set_option maxRecDepth 20000 in
theorem lisp_parse : parseGrammar lispText = .ok lispAst := ok_of (by decide +kernel)

/-- The generated parser. -/
def lispL : Lalr := (Lalr.new id lispRx (fun _ l => l) (lower lispAst)).toOption.getD
  ⟨⟨[], [], [], []⟩, ⟨⟨[], [], [], []⟩, [], []⟩, [], [], []⟩

theorem lisp_new : Lalr.new id lispRx (fun _ l => l) (lower lispAst) = .ok lispL := ok_of_isSome (by decide +kernel)

theorem lisp_tokens : (lower lispAst).tokens =
    [.eof, .strLit "(".toList, .strLit ")".toList, .strLit "add".toList, .nonTerm "Expr".toList, .nonTerm "Exprs".toList,
      .nonTerm "SExpr".toList, .regex "[1-9]+[0-9]*".toList] := by decide +kernel

theorem lisp_distinct : DistinctSpellings (lower lispAst) := by
  unfold DistinctSpellings
  rw [lisp_tokens]
  intro s hs t ht h1 h2 h3
  simp only [List.mem_cons, List.not_mem_nil, or_false] at hs ht
  rcases hs with rfl | rfl | rfl | rfl | rfl | rfl | rfl | rfl <;>
    rcases ht with rfl | rfl | rfl | rfl | rfl | rfl | rfl | rfl <;>
    first | rfl | exact False.elim h1 | exact False.elim h2 | (revert h3; decide)

-- C49, C50, C51: the grammar file of the project is read; its tables are built; a
-- list of two atoms and a list is parsed.
example : parseGrammar lispText = .ok lispAst ∧ Writable lispAst ∧
    lispAst.find? (fun p => p.isStart) = some (startOf lispAst) ∧ Grammar.fromAst lispAst = .ok (lower lispAst) ∧
    Lalr.new id lispRx (fun _ l => l) (lower lispAst) = .ok lispL ∧ Reorders (fun _ l => l) ∧
    DistinctSpellings (lower lispAst) ∧
    lispL.parse 100 "(add 12 (add 3))".toList = .ok [5, 6, 5, 6, 3, 2, 1, 4, 3, 2, 2, 1] :=
  ⟨lisp_parse, (C50_writable _).mp ⟨_, lisp_parse⟩, startOf_eq (by decide +kernel), ok_of_isSome (by decide +kernel),
    lisp_new, reorders_id, lisp_distinct, ok_of (by decide +kernel)⟩

-- C51: none of its terminals has a backslash, an apostrophe or a line break.
example : parseGrammar lispText = .ok lispAst ∧ PlainGrammar lispAst :=
  ⟨lisp_parse, C51_plain lisp_parse (by
    have : ∀ p ∈ lispAst, ∀ b ∈ p.bodies, ∀ s ∈ b.inputs,
        '\\' ∉ spelling s.lower ∧ '\'' ∉ spelling s.lower ∧ ∀ c ∈ spelling s.lower, isBreak c = false := by decide +kernel
    exact fun p hp b hb s hs _ => this p hp b hb s hs)⟩

-- C49: a text that is cut but has no reading, and a text that is not even cut.
example : (∃ ts, Cut "export : =".toList ts) ∧ parseGrammar "export : =".toList = .error .syntaxError ∧
    parseGrammar "A: (x) = [ ! ]".toList = .error .syntaxError :=
  ⟨⟨[.export, .colon, .eq], tokens_iff.mp (ok_of (by decide +kernel))⟩, error_of (by decide +kernel), error_of (by decide +kernel)⟩

-- C49: the hypotheses of `C49_greedy`: two code blocks on one line.
example : '\n' ∉ chars! "x) = [ \"a\" => (y" ∧ ')' ∉ (chars! "\n]").takeWhile (· ≠ '\n') ∧
    Cut (chars! "(x) = [ \"a\" => (y)\n]") [.code (chars! "(x) = [ \"a\" => (y)"), .rbrack] :=
  ⟨by decide, by decide, tokens_iff.mp (ok_of (by decide +kernel))⟩

/-- A production with a body on one line is refused, and accepted after a line break
within the brackets: the reading of `C49_reads` is not one production per matching
pair of parentheses. -/
theorem C49_one_line : parseGrammar (chars! "export start A: (x) = [ \"a\" => (y) ]") = .error .syntaxError ∧
    parseGrammar (chars! "export start A: (x) = [\n\"a\" => (y) ]") =
      .ok [⟨['A'], [⟨[.strLit ['a']], ['y']⟩], true, ['x']⟩] :=
  ⟨error_of (by decide +kernel), ok_of (by decide +kernel)⟩

/-- The grammar of the README, which begins with a comment, is refused for it. -/
theorem C49_comment : parseGrammar (chars! "// basic_lisp.tlalr\n" ++ lispText) = .error .syntaxError :=
  error_of (by decide +kernel)

/-- A parameter called `r` is refused. -/
theorem C50_keyword : parseGrammar (chars! "export start A: (x) = [\n<r: A> => (y)]") = .error .syntaxError ∧
    ¬ Writable [⟨['A'], [⟨[.named (some ['r']) (.nonTerm ['A'])], ['y']⟩], true, ['x']⟩] := by
  refine ⟨error_of (by decide +kernel), fun h => ?_⟩
  cases (h.inputs _ List.mem_cons_self _ List.mem_cons_self).2 _ List.mem_cons_self with
  | plain h => cases h
  | named h _ => exact h.2.2.2 rfl

end Verif.Props
