import Verif.Proofs.WrittenOk
import Verif.Props.Project

/-! # Property C61: the files that are written, read as text

The program writes four files of TypeScript; three more are part of the repository.  What
`Verif.Spec.TsProject` reads in these seven texts, and what `Parse<L.Lex<"text">>` then denotes. -/

namespace Verif.Props
open Verif Spec MiniTs
open Verif.Tests.TsFiles (utilText lexText parseText)

/-- The texts of the project of a grammar: ts/util.ts, ts/lex.ts and ts/parse.ts as they are in the
repository, and the files written by the program. -/
def projectText (ps : List Ast.Prod) (max : Nat) (l : Lalr) (T : ParseGen.Tables) : Mod → Option Str
  | .util => some utilText.flatten
  | .lex => some lexText.flatten
  | .parse => some parseText.flatten
  | m => writtenText ps max l T m

section
variable {H : Type} [DecidableEq H] {hash : List Item → H} {rx : Str → Option Hir} {ord : Nfa.Order}
  {ps : List Ast.Prod} {start : Ast.Prod} {g : Grammar} {l : Lalr} {T : ParseGen.Tables} {max : Nat}

/-- C61: each file that is written for the grammar is a file of TypeScript, and declares the tables,
the types of the user and one conditional type for each body. -/
theorem C61_written (hE : Emitted hash rx ord ps start g l T max) (ho : Reorders ord) (hR : Readable ps) (hW : TsWritable ps) :
    TsProject.Reads (ParseGen.fileText ps l T) (genFile ps (genOf max l T)) ∧
    TsProject.Reads (LexGen.Tables.new l.lexer).text (statesFile (LexGen.Tables.new l.lexer)) ∧
    TsProject.Reads (LexGen.charsText LexGen.charMap) (charsFile LexGen.charMap) ∧
    TsProject.Reads (LexGen.arithText max) (arithFile max) := by
  refine ⟨written_reads hE ho hR hW (m := .gen) rfl, written_reads hE ho hR hW (m := .states) rfl, ?_,
    written_reads hE ho hR hW (m := .arith) rfl⟩
  exact chars_reads charMap_breakless

/-- C61: a text is read in at most one way. -/
theorem C61_unique {text : Str} {F F' : TsProject.File} (h : TsProject.Reads text F) (h' : TsProject.Reads text F') : F = F' :=
  TsProject.reads_unique h h'

/-- C61: the seven texts are the files of the project for the grammar and of no other. -/
theorem C61_project (hE : Emitted hash rx ord ps start g l T max) (ho : Reorders ord) (hR : Readable ps) (hW : TsWritable ps)
    (files : Mod → TsProject.File) :
    TsProject.ReadAs (projectText ps max l T) files ↔ files = projectOf ps (genOf max l T) := by
  have all : TsProject.ReadAs (projectText ps max l T) (projectOf ps (genOf max l T)) := by
    intro m
    cases m with
    | util => exact TsProject.reads_of_file (Tests.RepoFiles.util_file (max := max))
    | lex => exact TsProject.reads_of_file (Tests.RepoFiles.lex_file (max := max))
    | parse => exact TsProject.reads_of_file (Tests.RepoFiles.parse_file (max := max))
    | gen => exact written_reads hE ho hR hW (m := .gen) rfl
    | states => exact written_reads hE ho hR hW (m := .states) rfl
    | arith => exact written_reads hE ho hR hW (m := .arith) rfl
    | chars =>
      have h := chars_reads charMap_breakless
      simpa only [projectText, writtenText, projectOf, genOf] using h
    | defs => exact rfl
    | actions => exact rfl
  constructor
  · intro h
    funext m
    have h1 := h m
    have h2 := all m
    cases ht : projectText ps max l T m with
    | none =>
      rw [ht] at h1 h2
      exact h1.trans h2.symm
    | some text =>
      rw [ht] at h1 h2
      exact C61_unique h1 h2
  · rintro rfl
    exact all

/-- C61: what an expression written in one of the files denotes, according to their texts. -/
theorem C61_meaning (hE : Emitted hash rx ord ps start g l T max) (ho : Reorders ord) (hN : TsNames ps) (hR : Readable ps)
    (hW : TsWritable ps) (hm : 50 ≤ max) {files : Mod → TsProject.File} (hF : TsProject.ReadAs (projectText ps max l T) files)
    {m : Mod} (hf : m ∈ [Mod.util, .lex, .parse, .defs, .actions]) {e : Exp} (he : codeFree e = true) {t : Ty} :
    TsProject.Denotes files m e t ↔ TypeIs (userOf ps) (genOf max l T) m e t := by
  rw [(C61_project hE ho hR hW files).mp hF]
  exact C60_meaning hE hN hR hm hf he

/-- C61: from the texts to the value.  In the project with the seven texts `Parse<L.Lex<"text">>` is
the start symbol with value `v` exactly if the cut of the text by maximal munch has a parse tree of
value `v` with fewer than 50 leaves and nodes, along which no transition is dropped; otherwise it is
one of two error messages or, if the tables lack a transition, `not good`.
Missing: pieces that do not fit the ranges (`C33_false`), named regexes (`C60_false_written`), mapping code that ends in a comment (`C61_false_comment`). -/
theorem C61_value_partial (hE : Emitted hash rx ord ps start g l T max) (ho : Reorders ord) (hN : TsNames ps) (hR : Readable ps)
    (hW : TsWritable ps) {files : Mod → TsProject.File} (hF : TsProject.ReadAs (projectText ps max l T) files)
    (hw : WellTyped (semOf (userOf ps)) ps) (hh : NoHiding ps) (hc : NoCollisions hash g (Lalr.depthOf g))
    {ds : List (TokenDef × Hir)} (hd : Grammar.tokenDefs rx 0 g.tokens = .ok ds)
    (ha : AtomsOk (ds.map Prod.snd)) (hv : ∀ p ∈ ds, NonVoid p.2)
    {input : Str} (hcov : Covered max (LexGen.Tables.new l.lexer) input) (hlt : input.length < max)
    (hsup : ∀ c ∈ input, (LexGen.charCode c).isSome = true) :
    ∃ out err, Scan ds 0 input out err ∧
      (∀ out' err', Scan ds 0 input out' err' → out' = out ∧ err' = err) ∧
      ((∃ i c, err = some (i, c) ∧
        TsProject.Denotes files .parse (applied "L.Lex".toList [.str input])
          (.str ("invalid symbol: `".toList ++ [c] ++ "` at index ".toList ++ LexGen.digits i)) ∧
        ∀ t, TsProject.Denotes files .parse (parseOfLex input) t ↔
          t = .tup [.str "error: invalid token undefined".toList, .tup []]) ∨
       (err = none ∧ ∃ ws : List Sym, out.map (pieceSym g ds) = ws.map some ∧
        (∀ v, TsProject.Denotes files .parse (parseOfLex input) (.tup [kindValue start.name (some v)]) ↔
          ∃ f, IsTree g.prods start.name f ws ∧ KeptTree g f ∧ ws.length + f.post.length < 50 ∧
            Eval (semOf (userOf ps)) ps f (out.map (·.2.2)) [v]) ∧
        ((∃ v, TsProject.Denotes files .parse (parseOfLex input) (.tup [kindValue start.name (some v)])) ∨
          TsProject.Denotes files .parse (parseOfLex input) (.str "exceeded max recursion depth".toList) ∨
          (∃ m ts, TsProject.Denotes files .parse (parseOfLex input)
            (.tup [.str ("error: invalid token ".toList ++ m), .tup ts])) ∨
          (TsProject.Denotes files .parse (parseOfLex input) (.str "not good".toList) ∧
            ¬ AllTransitions g l.states l.action l.goto)))) := by
  have he : codeFree (parseOfLex input) = true := rfl
  have he' : codeFree (applied "L.Lex".toList [.str input]) = true := rfl
  have hm : 50 ≤ max := by have := hcov.chars; omega
  simp only [C61_meaning hE ho hN hR hW hm hF (m := .parse) (by simp) he, C61_meaning hE ho hN hR hW hm hF (m := .parse) (by simp) he']
  exact C58_value_partial hE ho hN hw hh hc hd ha hv hcov hlt hsup

end

/-! ## A grammar -/

/-- A check for `TsWritable`. -/
def tsWritableB (ps : List Ast.Prod) : Bool :=
  plainGrammarB ps && ps.all fun p => decide (p.name ∉ TsProject.reserved) && p.bodies.all fun b =>
    (b.inputs.all fun s =>
      (match s.lower with | .nonTerm n => decide (n ∉ TsProject.reserved) | _ => true) &&
      (match s with | .named _ (.regex _) => false | _ => true)) &&
    (names b.inputs).all plainGrammarB.wordB &&
    decide ((b.mapping.foldl TsSyntax.scanStep ⟨[], .between, []⟩).mode ≠ .line)

theorem wordB_sound {s : Str} (hs : plainGrammarB.wordB s = true) : WordName s := by
  cases s with
  | nil => cases hs
  | cons c w =>
    simp only [plainGrammarB.wordB, Bool.and_eq_true, List.all_eq_true] at hs
    exact ⟨c, w, rfl, hs.1, hs.2⟩

theorem tsWritableB_sound {ps : List Ast.Prod} (h : tsWritableB ps = true) : TsWritable ps := by
  unfold tsWritableB at h
  rw [Bool.and_eq_true] at h
  obtain ⟨h0, h⟩ := h
  have hp := plainGrammarB_sound h0
  simp only [List.all_eq_true, Bool.and_eq_true, decide_eq_true_eq] at h
  refine ⟨fun p hp' => ⟨hp.heads p hp', (h p hp').1⟩, fun p hp' b hb s hs n hn => ⟨hp.refs p hp' b hb s hs n hn, ?_⟩, hp.terms,
    fun p hp' b hb n hn => wordB_sound (((h p hp').2 b hb).1.2 n hn), fun p hp' b hb n r hr => ?_, fun p hp' b hb => ((h p hp').2 b hb).2⟩
  · have := (((h p hp').2 b hb).1.1 s hs).1
    rw [hn] at this
    exact of_decide_eq_true this
  · have := (((h p hp').2 b hb).1.1 _ hr).2
    cases this

/-- `S → "(" s:S ")" | t:"x" | /[0-9]+/`. -/
def nestAst : List Ast.Prod :=
  [⟨"S".toList,
    [⟨[.strLit "(".toList, .named (some "s".toList) (.nonTerm "S".toList), .strLit ")".toList], "{ of: s }".toList⟩,
     ⟨[.named (some "t".toList) (.strLit "x".toList)], "{ text: t }".toList⟩,
     ⟨[.regex "[0-9]+".toList], "0 /* any */".toList⟩],
    true, "{ of: S } | { text: string } | number".toList⟩]

/-- The regex crate on the one regex of `nestAst`. -/
def nestRx (s : Str) : Option Hir := if s = "[0-9]+".toList then some (.rep .oneOrMore (.cls [(48, 57)])) else none

/-- The generated parser. -/
def nestL : Lalr := (Lalr.new id nestRx (fun _ l => l) (lower nestAst)).toOption.getD ⟨⟨[], [], [], []⟩, ⟨⟨[], [], [], []⟩, [], []⟩, [], [], []⟩

/-- The generated tables. -/
def nestT : ParseGen.Tables := (ParseGen.generate nestAst nestL).toOption.getD ⟨[], [], [], [], [], []⟩

theorem nest_expressible : Expressible nestAst := expressibleB_sound (by decide +kernel)

theorem nest_generated : Generated id nestRx (fun _ l => l) nestAst (startOf nestAst) (lower nestAst) nestL :=
  ⟨nest_expressible, startOf_eq (by decide +kernel), ok_of_isSome (by decide +kernel),
    ok_of_isSome (by decide +kernel)⟩

theorem nest_tokens : (lower nestAst).tokens =
    [.eof, .strLit "(".toList, .strLit ")".toList, .strLit "x".toList, .nonTerm "S".toList, .regex "[0-9]+".toList] := by decide +kernel

theorem nest_distinct : DistinctSpellings (lower nestAst) := by
  unfold DistinctSpellings
  rw [nest_tokens]
  intro s hs t ht h1 h2 h3
  simp only [List.mem_cons, List.not_mem_nil, or_false] at hs ht
  rcases hs with rfl | rfl | rfl | rfl | rfl | rfl <;> rcases ht with rfl | rfl | rfl | rfl | rfl | rfl <;>
    first | rfl | exact False.elim h1 | exact False.elim h2 | (revert h3; decide)

theorem nest_kinds : DistinctKinds (lower nestAst) := by
  refine ⟨nest_distinct, ?_⟩
  rw [nest_tokens]
  intro s hs
  simp only [List.mem_cons, List.not_mem_nil, or_false] at hs
  rcases hs with rfl | rfl | rfl | rfl | rfl | rfl <;> intro h <;> first | exact False.elim h | decide

theorem nest_emitted : Emitted id nestRx (fun _ l => l) nestAst (startOf nestAst) (lower nestAst) nestL nestT 300 :=
  ⟨nest_generated, ok_of_isSome (by decide +kernel), namesOkB_sound (by decide +kernel), nest_kinds, by decide +kernel⟩

set_option maxRecDepth 20000 in
theorem nest_readable : Readable nestAst := readableB_sound (by decide +kernel)

theorem nest_writable : TsWritable nestAst := tsWritableB_sound (by decide +kernel)

theorem nest_noHiding : NoHiding nestAst := noHidingB_sound (by decide +kernel)

theorem nest_tsNames : TsNames nestAst := by
  have one : ∀ p ∈ nestAst, p.name = ['S'] := by
    intro p hp
    simp only [nestAst, List.mem_cons, List.not_mem_nil, or_false] at hp
    rw [hp]
    rfl
  refine ⟨by decide, by decide, ?_, by decide, ?_, ?_, ?_, ?_⟩
  · intro p hp i h
    rw [one p hp] at h
    have := congrArg List.length h
    simp at this
  · intro p hp m h
    rw [one p hp] at h
    have := congrArg List.length h
    simp at this
  · intro p hp i h
    rw [one p hp] at h
    have := congrArg List.length h
    simp at this
  · decide
  · intro p hp b hb n k h
    simp only [nestAst, List.mem_cons, List.not_mem_nil, or_false] at hp
    subst hp
    simp only [List.mem_cons, List.not_mem_nil, or_false] at hb
    rcases hb with rfl | rfl | rfl
    · simp only [List.mem_cons, List.not_mem_nil, or_false, reduceCtorEq, false_or, Ast.InSym.named.injEq,
        Ast.InSym.nonTerm.injEq] at h
      obtain ⟨_, rfl⟩ := h
      exact ⟨_, List.mem_cons_self .., rfl⟩
    · simp at h
    · simp at h

theorem nest_transitions : AllTransitions (lower nestAst) nestL.states nestL.action nestL.goto :=
  transitions_of nest_generated.built (noCollisions_id _ _) (ok_of_isSome (d := []) (by decide +kernel)) (by decide +kernel)

/-- The lexer tokens of `nestAst`. -/
def nestDefs : List (TokenDef × Hir) :=
  [(⟨"(".toList, true, some 1⟩, .lit 40), (⟨")".toList, true, some 2⟩, .lit 41), (⟨"x".toList, true, some 3⟩, .lit 120),
    (⟨"[0-9]+".toList, true, some 5⟩, .rep .oneOrMore (.cls [(48, 57)]))]

theorem nest_defs : Grammar.tokenDefs nestRx 0 (lower nestAst).tokens = .ok nestDefs := by
  rw [nest_tokens]; rfl

theorem nest_atoms : AtomsOk (nestDefs.map Prod.snd) :=
  atomsOk_of (al := [⟨40, 41⟩, ⟨41, 42⟩, ⟨48, 58⟩, ⟨120, 121⟩]) rfl (by decide +kernel)

theorem nest_nonVoid : ∀ p ∈ nestDefs, NonVoid p.2 := by
  intro p hp
  simp only [nestDefs, List.mem_cons, List.not_mem_nil, or_false] at hp
  rcases hp with rfl | rfl | rfl | rfl
  · exact .lit '('
  · exact .lit ')'
  · exact .lit 'x'
  · refine .rep (.cls (by simp) ?_)
    intro r hr
    simp only [List.mem_cons, List.not_mem_nil, or_false] at hr
    subst hr
    exact ⟨'0', by decide, by decide⟩

/-- A member. -/
local macro "m!" s:str e:term:max es:term:max : term => `(Exps.cons (.member (.str ($s : String).toList) false) $e $es)

theorem read_of : readType "{ of: s }".toList = some (.obj (m! "of" (.ref "s".toList .nil) .nil)) := readsAs_eq (by decide +kernel)
theorem read_text : readType "{ text: t }".toList = some (.obj (m! "text" (.ref "t".toList .nil) .nil)) := readsAs_eq (by decide +kernel)
theorem read_any : readType "0 /* any */".toList = some (.lit (.num 0)) := readsAs_eq (by decide +kernel)
set_option maxRecDepth 20000 in
theorem read_S : readType "{ of: S } | { text: string } | number".toList =
    some (.union (.cons .elem (.obj (m! "of" (.ref "S".toList .nil) .nil))
      (.cons .elem (.obj (m! "text" (.lit .string) .nil)) (.cons .elem (.lit .number) .nil)))) := readsAs_eq (by decide +kernel)

theorem decl_S : declared nestAst "S".toList =
    some (.union [Lisp.record [("of", .named "S".toList)], Lisp.record [("text", .string)], .number]) := by
  rw [declared_eq (by decide +kernel) read_S]
  simp only [declTy, declMems, declTys, Lisp.record, Option.map_some, Option.bind_some, List.map_cons, List.map_nil]

theorem code_of (v : Ty) : (userOf nestAst).code "{ of: s }".toList [("s".toList, v)] = some (Lisp.record [("of", v)]) := by
  simp only [userOf, read_of, Option.bind_some]
  simp [ev, evMems, mget, Lisp.record]
theorem code_text (v : Ty) : (userOf nestAst).code "{ text: t }".toList [("t".toList, v)] = some (Lisp.record [("text", v)]) := by
  simp only [userOf, read_text, Option.bind_some]
  simp [ev, evMems, mget, Lisp.record]
theorem code_any : (userOf nestAst).code "0 /* any */".toList [] = some (.num 0) := by
  simp only [userOf, read_any, Option.bind_some]
  simp [ev]

theorem has_nest {v : Ty} (h : Has nestAst "S".toList v) : Has nestAst "S".toList (Lisp.record [("of", v)]) := by
  obtain ⟨n, hn⟩ := h.within
  refine has_of decl_S (n := n) ?_ (by simp [Lisp.record])
  have hn := hn n (Nat.le_refl n)
  simp [Lisp.record] at hn ⊢
  rw [accepts]
  simp only [lift, acceptsAny, Bool.or_eq_true]
  refine .inl ?_
  rw [accepts]
  simp only [lift, acceptsObj, member]
  simp [accepts, lift] at hn ⊢
  exact hn

theorem has_text (w : Str) : Has nestAst "S".toList (Lisp.record [("text", .str w)]) := by
  refine has_of decl_S (n := 0) ?_ (by simp [Lisp.record])
  simp [accepts, lift, acceptsAny, acceptsObj, member, Lisp.record]

theorem has_any : Has nestAst "S".toList (.num 0) := by
  refine has_of decl_S (n := 0) ?_ (by simp)
  simp [accepts, lift, acceptsAny, Lisp.record]

/-- What is known of the values of a symbol. -/
def NestValue : Sym → Ty → Prop
  | .nonTerm k, v => Has nestAst k v
  | .strLit s, v => v = .str s
  | _, _ => True

theorem nest_step : ∀ p ∈ nestAst, ∀ b ∈ p.bodies, ∀ vs, List.Forall₂ NestValue (b.inputs.map Ast.InSym.lower) vs →
    ∃ v, (userOf nestAst).code b.mapping (bindings b.inputs vs) = some v ∧ NestValue (.nonTerm p.name) v := by
  intro p hp b hb vs hvs
  simp only [nestAst, List.mem_cons, List.not_mem_nil, or_false] at hp
  subst hp
  simp only [List.mem_cons, List.not_mem_nil, or_false] at hb
  rcases hb with rfl | rfl | rfl
  · cases hvs with
    | cons h1 hvs =>
      cases hvs with
      | cons h2 hvs =>
        cases hvs with
        | cons h3 hvs =>
          cases hvs
          simp only [bindings]
          exact ⟨_, code_of _, has_nest h2⟩
  · cases hvs with
    | cons h1 hvs =>
      cases hvs
      simp only [bindings]
      cases h1
      exact ⟨_, code_text _, has_text _⟩
  · cases hvs with
    | cons h1 hvs =>
      cases hvs
      simp only [bindings]
      exact ⟨_, code_any, has_any⟩

theorem nest_occurs {s : Sym} {v : Ty} (h : Occurs (semOf (userOf nestAst)) nestAst s v) : NestValue s v := by
  induction h with
  | strLit => exact rfl
  | regex => exact trivial
  | @nonTerm p b vs v hp hb hl _ hc ih =>
    obtain ⟨u, h1, h2⟩ := nest_step p hp b hb vs (forall₂_of_get (by simpa using hl.symm) ih)
    obtain rfl : v = u := Option.some.inj (hc.symm.trans h1)
    exact h2

theorem nest_typed : WellTyped (semOf (userOf nestAst)) nestAst := by
  intro p hp b hb vs hvs
  obtain ⟨v, h1, h2⟩ := nest_step p hp b hb vs (hvs.imp fun _ _ => nest_occurs)
  exact ⟨v, h1, h2⟩

/-- A token that begins with one of the three characters is that character. -/
theorem nest_single {p : TokenDef × Hir} (hp : p ∈ nestDefs) {c : Char} (hc : c = '(' ∨ c = ')' ∨ c = 'x') {w : Str}
    (h : Matches p.2 (c :: w)) : w = [] := by
  simp only [nestDefs, List.mem_cons, List.not_mem_nil, or_false] at hp
  rcases hp with rfl | rfl | rfl | rfl
  · cases h; rfl
  · cases h; rfl
  · cases h; rfl
  · generalize e : c :: w = u at h
    cases h with
    | plus h1 _ =>
      cases h1 with
      | @cls d _ r hr h2 h3 =>
        simp only [List.mem_cons, List.not_mem_nil, or_false] at hr
        subst hr
        obtain ⟨rfl, -⟩ := List.cons.inj e
        exfalso
        rcases hc with rfl | rfl | rfl <;> revert h2 h3 <;> decide

theorem nest_longest {c : Char} (hc : c = '(' ∨ c = ')' ∨ c = 'x') (rest : Str) : LongestMatch nestDefs (c :: rest) [c] := by
  refine ⟨by simp, ⟨rest, rfl⟩, ?_, ?_⟩
  · rcases hc with rfl | rfl | rfl
    · exact ⟨_, List.mem_cons_self .., .lit (by decide)⟩
    · exact ⟨_, List.mem_cons_of_mem _ (List.mem_cons_self ..), .lit (by decide)⟩
    · exact ⟨_, List.mem_cons_of_mem _ (List.mem_cons_of_mem _ (List.mem_cons_self ..)), .lit (by decide)⟩
  · rintro v ⟨r, hr⟩ hl p hp hm
    cases v with
    | nil => simp at hl
    | cons d v =>
      obtain ⟨rfl, -⟩ := List.cons.inj hr
      rw [nest_single hp hc hm] at hl
      simp at hl

theorem nest_dead {c d : Char} (hc : c = '(' ∨ c = ')' ∨ c = 'x') {rest : Str} : ¬ Viable nestDefs (c :: d :: rest) := by
  rintro ⟨v, p, hp, hm⟩
  have := nest_single hp hc (w := d :: rest ++ v) hm
  simp at this

theorem nest_scan : Scan nestDefs 0 "(x)".toList [(0, 0, ['(']), (1, 2, ['x']), (2, 1, [')'])] none := by
  refine .tok (w := ['(']) (rest := ['x', ')']) (nest_longest (.inl rfl) _) ⟨⟨_, rfl, .lit (by decide)⟩, fun j p h => absurd h (by simp)⟩ rfl
    (nest_dead (.inl rfl)) ?_
  refine .tok (w := ['x']) (rest := [')']) (nest_longest (.inr (.inr rfl)) _) ⟨⟨_, rfl, .lit (by decide)⟩, ?_⟩ rfl
    (nest_dead (.inr (.inr rfl))) ?_
  · intro j p hj hp hm
    match j, hj with
    | 0, _ => cases hp; cases hm with | lit h => revert h; decide
    | 1, _ => cases hp; cases hm with | lit h => revert h; decide
  refine .tokEnd (rest := []) (nest_longest (.inr (.inl rfl)) _) ⟨⟨_, rfl, .lit (by decide)⟩, ?_⟩ rfl ?_
  · intro j p hj hp hm
    match j, hj with
    | 0, _ => cases hp; cases hm with | lit h => revert h; decide
  · exact ⟨[], _, List.mem_cons_of_mem _ (List.mem_cons_self ..), .lit (by decide)⟩

theorem nest_covered : Covered 300 (LexGen.Tables.new nestL.lexer) "(x)".toList := by
  refine ⟨?_, ?_, ?_, ?_⟩ <;> decide +kernel

/-- The parse tree of `(x)`. -/
def nestTree : Forest :=
  .node 1 (.leaf (.strLit "(".toList) (.node 2 (.leaf (.strLit "x".toList) .nil) (.leaf (.strLit ")".toList) .nil))) .nil

theorem nest_syms : (List.map (pieceSym (lower nestAst) nestDefs) [(0, 0, ['(']), (1, 2, ['x']), (2, 1, [')'])]) =
    [Sym.strLit "(".toList, .strLit "x".toList, .strLit ")".toList].map some := by
  decide +kernel

theorem nest_prods : ((lower nestAst).prods[1]?.map fun p => (p.name, p.inputs)) =
      some ("S".toList, [.strLit "(".toList, .nonTerm "S".toList, .strLit ")".toList]) ∧
    ((lower nestAst).prods[2]?.map fun p => (p.name, p.inputs)) = some ("S".toList, [.strLit "x".toList]) := by decide +kernel

theorem nest_tree : IsTree (lower nestAst).prods "S".toList nestTree [.strLit "(".toList, .strLit "x".toList, .strLit ")".toList] := by
  obtain ⟨h1, h2⟩ := nest_prods
  obtain ⟨p1, h1, e1⟩ := Option.map_eq_some_iff.mp h1
  obtain ⟨p2, h2, e2⟩ := Option.map_eq_some_iff.mp h2
  obtain ⟨n1, i1⟩ := Prod.mk.inj e1
  obtain ⟨n2, i2⟩ := Prod.mk.inj e2
  refine ⟨⟨⟨_, h1, ?_⟩, ⟨trivial, ⟨_, h2, ?_⟩, ⟨trivial, trivial⟩, trivial, trivial⟩, trivial⟩, ?_, rfl⟩
  · rw [i1]
    simp only [Forest.roots, h2, Option.map_some, Option.getD_some, n2]
  · rw [i2]
    rfl
  · simp only [nestTree, Forest.roots, h1, Option.map_some, Option.getD_some, n1]

theorem nest_eval : Eval (semOf (userOf nestAst)) nestAst nestTree ["(".toList, "x".toList, ")".toList]
    [Lisp.record [("of", Lisp.record [("text", .str "x".toList)])]] := by
  have b1 : bodyOf nestAst 1 =
      some ⟨[.strLit "(".toList, .named (some "s".toList) (.nonTerm "S".toList), .strLit ")".toList], "{ of: s }".toList⟩ := rfl
  have b2 : bodyOf nestAst 2 = some ⟨[.named (some "t".toList) (.strLit "x".toList)], "{ text: t }".toList⟩ := rfl
  have inner : Eval (semOf (userOf nestAst)) nestAst
      (.node 2 (.leaf (.strLit "x".toList) .nil) (.leaf (.strLit ")".toList) .nil)) ["x".toList, ")".toList]
      [Lisp.record [("text", .str "x".toList)], .str ")".toList] :=
    .node (ws1 := ["x".toList]) (ws2 := [")".toList]) b2 (.leaf .nil) (by simp only [bindings, semOf]; exact code_text _) (.leaf .nil)
  exact .node (ws1 := ["(".toList, "x".toList, ")".toList]) (ws2 := []) b1 (.leaf inner)
    (by simp only [bindings, semOf]; exact code_of _) .nil

-- C61: the hypotheses for `nestAst`, and what `Parse<L.Lex<"(x)">>` denotes according to the texts.
example : Emitted id nestRx (fun _ l => l) nestAst (startOf nestAst) (lower nestAst) nestL nestT 300 ∧ Reorders (fun _ l => l) ∧
    TsNames nestAst ∧ Readable nestAst ∧ TsWritable nestAst ∧
    ∃ files, TsProject.ReadAs (projectText nestAst 300 nestL nestT) files ∧
      TsProject.Denotes files .parse (parseOfLex "(x)".toList)
        (.tup [kindValue "S".toList (some (Lisp.record [("of", Lisp.record [("text", .str "x".toList)])]))]) := by
  have hF : TsProject.ReadAs (projectText nestAst 300 nestL nestT) (projectOf nestAst (genOf 300 nestL nestT)) :=
    (C61_project nest_emitted reorders_id nest_readable nest_writable _).mpr rfl
  refine ⟨nest_emitted, reorders_id, nest_tsNames, nest_readable, nest_writable, projectOf nestAst (genOf 300 nestL nestT), hF, ?_⟩
  generalize projectOf nestAst (genOf 300 nestL nestT) = files at hF ⊢
  obtain ⟨out, err, h1, h2, h3⟩ := C61_value_partial nest_emitted reorders_id nest_tsNames nest_readable nest_writable
    hF nest_typed nest_noHiding (noCollisions_id _ _)
    nest_defs nest_atoms nest_nonVoid nest_covered (by decide) (by rw [charCode_fun]; decide +kernel)
  obtain ⟨rfl, rfl⟩ := h2 _ _ nest_scan
  have hn : (startOf nestAst).name = "S".toList := by decide +kernel
  rw [hn] at h3
  rcases h3 with ⟨i, c, h, _⟩ | ⟨_, ws, h4, h5, _⟩
  · cases h
  · have hws : ws = [.strLit "(".toList, .strLit "x".toList, .strLit ")".toList] := by
      rw [nest_syms] at h4
      exact (List.map_injective_iff.mpr (fun _ _ h => Option.some.inj h) h4).symm
    subst hws
    exact (h5 _).mpr ⟨nestTree, nest_tree,
      C66_all nest_generated.built (noCollisions_id _ _) nest_transitions nest_tree, by decide, nest_eval⟩

/-- The same grammar with a comment at the end of a mapping. -/
def commentAst : List Ast.Prod :=
  [⟨"S".toList, [⟨[.strLit "x".toList], "0 // any".toList⟩], true, "number".toList⟩]

def commentL : Lalr := (Lalr.new id nestRx (fun _ l => l) (lower commentAst)).toOption.getD ⟨⟨[], [], [], []⟩, ⟨⟨[], [], [], []⟩, [], []⟩, [], [], []⟩

def commentT : ParseGen.Tables := (ParseGen.generate commentAst commentL).toOption.getD ⟨[], [], [], [], [], []⟩

/-- C61: mapping code that ends in a line comment, while TypeScript by itself, turns the file into a
text that is none: the rest of its line is part of the comment. -/
theorem C61_false_comment : Readable commentAst ∧ Lalr.new id nestRx (fun _ l => l) (lower commentAst) = .ok commentL ∧
    ParseGen.generate commentAst commentL = .ok commentT ∧
    TsProject.file (ParseGen.fileText commentAst commentL commentT) = none :=
  ⟨readableB_sound (by decide +kernel), ok_of_isSome (by decide +kernel), ok_of_isSome (by decide +kernel),
    Option.isNone_iff_eq_none.mp (by decide +kernel)⟩

end Verif.Props
