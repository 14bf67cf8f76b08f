import Verif.Proofs.UsableOk
import Verif.Props.Written
import Verif.Props.TsExact
import Verif.Props.Program

/-! # Property C65: from the text of a grammar to the value of a type -/

namespace Verif.Props
open Verif Spec FrontEnd MiniTs
open Verif.Tests.TsFiles (utilText lexText parseText)

/-- The texts of the project: ts/util.ts, ts/lex.ts and ts/parse.ts as they are in the repository, the two
files that `compile` writes, and the tables of characters and numbers. -/
def compiledText (max : Nat) (out : Str × Str) : Mod → Option Str
  | .util => some utilText.flatten
  | .lex => some lexText.flatten
  | .parse => some parseText.flatten
  | .states => some out.1
  | .gen => some out.2
  | .chars => some (LexGen.charsText LexGen.charMap)
  | .arith => some (LexGen.arithText max)
  | _ => none

section
variable {H : Type} [DecidableEq H] {hash : List Item → H} {rx : Str → Option Hir} {ord : Nfa.Order} {text : Str}
  {ps : List Ast.Prod} {start : Ast.Prod} {g : Grammar} {max : Nat}

theorem usable_writable (hp : parseGrammar text = .ok ps) (hU : Usable rx max ps) : TsWritable ps := by
  obtain ⟨_, _, h1, h2⟩ := C51_expressible hp
  have hw := (C50_writable ps).mp ⟨text, hp⟩
  have hpl := C51_plain hp fun p hp b hb s hs ht => hU.terms.plain s.lower ⟨ht, p, hp, b, hb, s, hs, rfl⟩
  refine ⟨fun p hp => ⟨h1 p hp, hU.names.reserved.1 p hp⟩, fun p hp b hb s hs n hn => ⟨h2 p hp b hb s hs n hn,
    hU.names.reserved.2 p hp b hb s hs n hn⟩, hpl.terms, fun p hp b hb n hn => ?_, hU.terms.unnamed, hU.code.closed⟩
  simp only [names, List.mem_filterMap] at hn
  obtain ⟨s, hs, hn⟩ := hn
  cases (hw.inputs p hp b hb).2 s hs with
  | plain h => cases h <;> simp at hn
  | named hi _ =>
    simp only [Option.some.injEq] at hn
    subst hn
    exact ident_word hi.1

theorem usable_emitted (hr : ReadsGrammar text ps start) (hg : Grammar.fromAst ps = .ok g) (hU : Usable rx max ps)
    {out : Str × Str} (hc : compile hash rx ord text = .ok out) :
    ∃ l T, Emitted hash rx ord ps start g l T max ∧ compiledText max out = projectText ps max l T := by
  have hp := hr.parsed
  obtain ⟨he, hn, _⟩ := C51_expressible hp
  obtain ⟨l, hl⟩ := (compile_eq hr hg).2.mp ⟨out, hc⟩
  obtain ⟨T, hT⟩ := ParseGen.generate_never he hn hg (new_ok hl).1
  have hterm := fun s (h : IsTerm s) => Grammar.term_tokens he hg (s := s) h
  refine ⟨l, T, ⟨⟨he, hr.2, hg, hl⟩, hT, ⟨hn, hU.names.distinct, hU.names.noStack⟩, ⟨fun s hs t ht h1 h2 => ?_, fun s hs h => ?_⟩,
    Grammar.body_length hg (by have := hU.chars; omega) hU.bodies⟩, ?_⟩
  · exact hU.terms.distinct s t ((hterm s h1).mp hs) ((hterm t h2).mp ht)
  · exact hU.terms.noEof s ((hterm s h).mp hs)
  · unfold compile at hc
    simp only [hp, hg, hl, generateFiles, hT, bind, Except.bind, pure, Except.pure, Except.ok.injEq] at hc
    subst hc
    funext m
    cases m <;> rfl

/-- C65: what is written for a usable grammar can be read as TypeScript, in one way. -/
theorem C65_project (ho : Reorders ord) (hr : ReadsGrammar text ps start) (hU : Usable rx max ps) {out : Str × Str}
    (hc : compile hash rx ord text = .ok out) : ∃! files, TsProject.ReadAs (compiledText max out) files := by
  obtain ⟨g, hg⟩ := hr.grammar
  obtain ⟨l, T, hE, ht⟩ := usable_emitted hr hg hU hc
  have key := C61_project hE ho hU.code.readable (usable_writable hr.parsed hU)
  rw [ht]
  exact ⟨_, (key _).mpr rfl, fun f hf => (key f).mp hf⟩

/-- C65: if files are written for a usable grammar, then the types in them compute the value of every text of
supported characters shorter than the tables.  Missing: what `Usable` and `GoodRanges` exclude; the theorems named
there show what happens without their conditions. -/
theorem C65_value_partial (ho : Reorders ord) (hh : TextNoCollisions hash text) (hr : ReadsGrammar text ps start)
    (hg : Grammar.fromAst ps = .ok g) (hU : Usable rx max ps) (hR : GoodRanges rx ps) {out : Str × Str}
    (hc : compile hash rx ord text = .ok out) {files : Mod → TsProject.File} (hF : TsProject.ReadAs (compiledText max out) files) :
    ∃ ds, Grammar.tokenDefs rx 0 g.tokens = .ok ds ∧ Declares rx g ds ∧
      ∀ input : Str, input.length < max → (∀ c ∈ input, (LexGen.charCode c).isSome = true) →
        Computes files ps start.name g ds input := by
  obtain ⟨l, T, hE, ht⟩ := usable_emitted hr hg hU hc
  rw [ht] at hF
  obtain ⟨_, hlx, htab⟩ := new_ok hE.gen.new
  have he := hE.gen.expr
  unfold Grammar.lexer at hlx
  cases hd : Grammar.tokenDefs rx 0 g.tokens with
  | error e => rw [hd] at hlx; cases hlx
  | ok ds =>
    rw [hd] at hlx
    obtain ⟨N, acc, al, D, s0, M⟩ := Lex.fromTokens_made (reorders_ok ho) hlx
    have hrg := Grammar.ranges_iff he hg hd
    have ha : AtomsOk (ds.map Prod.snd) := by
      have h1 := hR.atoms _ hrg
      have h2 : TermAfter rx ps = After (ds.map Prod.snd) := by
        funext w m; exact propext (Grammar.after_iff he hg hd w m).symm
      rw [h2] at h1
      simpa [AtomsOk, rangesOf, List.flatMap_map] using h1
    have hv : ∀ p ∈ ds, NonVoid p.2 := by
      intro p hp
      rcases (Grammar.tokenDefs_mem hd p.2).mp ⟨p, hp, rfl⟩ with ⟨s, _, e⟩ | ⟨r, h1, h2⟩
      · rw [e]; exact Grammar.nonVoid_litHir s
      · exact hR.nonVoid r _ ((Grammar.regex_tokens he hg r).mp h1) h2
    refine ⟨ds, rfl, Grammar.declares hd, fun input hlt hsup => ?_⟩
    have hcov : Covered max (LexGen.Tables.new l.lexer) input :=
      M.covered (hU.terms.few _ hrg) (fun m hm => hU.terms.inside m ((hrg m).mp hm)) hU.chars (by omega)
    obtain ⟨out, err, b1, b2, b3⟩ := C61_value_partial hE ho hU.names.names hU.code.readable (usable_writable hr.parsed hU) hF
      hU.code.typed hU.names.noHiding (hh ps g hr.1 hg) hd ha hv hcov hlt hsup
    refine ⟨out, err, b1, b2, b3.imp_right fun ⟨e, ws, c1, c2, c3⟩ => ⟨e, ws, c1, c2, ?_⟩⟩
    refine c3.imp_right (Or.imp_right (Or.imp_right fun ⟨h1, h2⟩ => ⟨h1, fun hk => h2 ?_⟩))
    exact (C26_exact he hg (hh ps g hr.1 hg) htab).mpr (hk g hg)

/-- C65 whatever the ranges: if files are written for a usable grammar, then the types in them compute the value of
every text of supported characters shorter than the tables, the text being read piece by piece. -/
theorem C65_exact (ho : Reorders ord) (hh : TextNoCollisions hash text) (hr : ReadsGrammar text ps start)
    (hg : Grammar.fromAst ps = .ok g) (hU : Usable rx max ps) {out : Str × Str} (hc : compile hash rx ord text = .ok out)
    {files : Mod → TsProject.File} (hF : TsProject.ReadAs (compiledText max out) files) :
    ∃ ds al, Grammar.tokenDefs rx 0 g.tokens = .ok ds ∧ Declares rx g ds ∧
      Overlap.removeOverlap (ofList (rangesOf ds)) = .ok al ∧
      ∀ input : Str, input.length < max → (∀ c ∈ input, (LexGen.charCode c).isSome = true) →
        ComputesPieces al files ps start.name g ds input := by
  obtain ⟨l, T, hE, ht⟩ := usable_emitted hr hg hU hc
  rw [ht] at hF
  obtain ⟨_, hlx, htab⟩ := new_ok hE.gen.new
  have he := hE.gen.expr
  unfold Grammar.lexer at hlx
  cases hd : Grammar.tokenDefs rx 0 g.tokens with
  | error e => rw [hd] at hlx; cases hlx
  | ok ds =>
    rw [hd] at hlx
    obtain ⟨N, acc, al, D, s0, M⟩ := Lex.fromTokens_made (reorders_ok ho) hlx
    have hrg := Grammar.ranges_iff he hg hd
    refine ⟨ds, al, rfl, Grammar.declares hd, built_alphabet M.built (combined_labels M.comb), fun input hlt hsup => ?_⟩
    have hcov : Covered max (LexGen.Tables.new l.lexer) input :=
      M.covered (hU.terms.few _ hrg) (fun m hm => hU.terms.inside m ((hrg m).mp hm)) hU.chars (by omega)
    obtain ⟨al', out, err, b0, b1, b2, b3⟩ := C61_exact hE ho hU.names.names hU.code.readable (usable_writable hr.parsed hU) hF
      hU.code.typed hU.names.noHiding (hh ps g hr.1 hg) hd hcov hlt hsup
    obtain rfl : al' = al := Except.ok.inj (b0.symm.trans (built_alphabet M.built (combined_labels M.comb)))
    refine ⟨out, err, b1, b2, b3.imp_right fun ⟨e, ws, c1, c2, c3⟩ => ⟨e, ws, c1, c2, ?_⟩⟩
    refine c3.imp_right (Or.imp_right (Or.imp_right fun ⟨h1, h2⟩ => ⟨h1, fun hk => h2 ?_⟩))
    exact (C26_exact he hg (hh ps g hr.1 hg) htab).mpr (hk g hg)

/-- C65: if the GOTO of every LALR(1) state is kept, all transitions along every parse tree are, and
`Computes` says the same without that condition. -/
theorem C65_kept (hh : TextNoCollisions hash text) (hr : ReadsGrammar text ps start) (hg : Grammar.fromAst ps = .ok g)
    {out : Str × Str} (hc : compile hash rx ord text = .ok out) (hk : AllKept ps) {f : Forest} {ws : List Sym}
    (hf : IsTree g.prods start.name f ws) : KeptTree g f := by
  obtain ⟨l, hl⟩ := (compile_eq hr hg).2.mp ⟨out, hc⟩
  have hG : Generated hash rx ord ps start g l := ⟨(C51_expressible hr.parsed).1, hr.2, hg, hl⟩
  refine C66_all hG.built (hh ps g hr.1 hg) ?_ hf
  exact (C26_exact hG.expr hg (hh ps g hr.1 hg) (new_ok hl).2.2).mpr (hk g hg)

/-- C65: from the text of a grammar to the value of a type.  Let the text be a usable grammar whose regexes
are implemented, whose nonterminals have rules, in which FIRST meets no left recursion and no two items of a
state claim one entry.  Then files are written, together with those of the repository they are read as
TypeScript in one way, and in this reading `Parse<L.Lex<"input">>` computes the value of every input of supported
characters shorter than the tables.  Missing: what `Usable` and `GoodRanges` exclude. -/
theorem C65_text_partial (ho : Reorders ord) (hh : TextNoCollisions hash text) (hr : ReadsGrammar text ps start)
    (hg : Grammar.fromAst ps = .ok g) (h1 : RegexesOk rx ps) (h2 : Buildable (AstRule ps) start.name) (h3 : ¬ Clash g)
    (hU : Usable rx max ps) (hR : GoodRanges rx ps) :
    ∃ out files ds, compile hash rx ord text = .ok out ∧ TsProject.ReadAs (compiledText max out) files ∧
      (∀ files', TsProject.ReadAs (compiledText max out) files' → files' = files) ∧
      Grammar.tokenDefs rx 0 g.tokens = .ok ds ∧ Declares rx g ds ∧
      ∀ input : Str, input.length < max → (∀ c ∈ input, (LexGen.charCode c).isSome = true) →
        Computes files ps start.name g ds input := by
  obtain ⟨out, hc⟩ := (C64_writes (hash := hash) (rx := rx) ho hh).mpr ⟨ps, start, g, hr, hg, h1, h2, h3⟩
  obtain ⟨files, hF, hu⟩ := C65_project ho hr hU hc
  obtain ⟨ds, k1, k2, k3⟩ := C65_value_partial ho hh hr hg hU hR hc hF
  exact ⟨out, files, ds, hc, hF, hu, k1, k2, k3⟩

/-- C65 from the text of a grammar, whatever the ranges: as `C65_text_partial`, the input being read piece by piece. -/
theorem C65_text_exact (ho : Reorders ord) (hh : TextNoCollisions hash text) (hr : ReadsGrammar text ps start)
    (hg : Grammar.fromAst ps = .ok g) (h1 : RegexesOk rx ps) (h2 : Buildable (AstRule ps) start.name) (h3 : ¬ Clash g)
    (hU : Usable rx max ps) :
    ∃ out files ds al, compile hash rx ord text = .ok out ∧ TsProject.ReadAs (compiledText max out) files ∧
      (∀ files', TsProject.ReadAs (compiledText max out) files' → files' = files) ∧
      Grammar.tokenDefs rx 0 g.tokens = .ok ds ∧ Declares rx g ds ∧
      Overlap.removeOverlap (ofList (rangesOf ds)) = .ok al ∧
      ∀ input : Str, input.length < max → (∀ c ∈ input, (LexGen.charCode c).isSome = true) →
        ComputesPieces al files ps start.name g ds input := by
  obtain ⟨out, hc⟩ := (C64_writes (hash := hash) (rx := rx) ho hh).mpr ⟨ps, start, g, hr, hg, h1, h2, h3⟩
  obtain ⟨files, hF, hu⟩ := C65_project ho hr hU hc
  obtain ⟨ds, al, k1, k2, k3, k4⟩ := C65_exact ho hh hr hg hU hc hF
  exact ⟨out, files, ds, al, hc, hF, hu, k1, k2, k3, k4⟩

end

/-! ## A grammar -/

/-- The characters of a string literal. -/
local macro "chars!" s:str : term => do
  let cs := s.getString.toList.map fun c => Lean.Syntax.mkCharLit c
  `([$(cs.toArray),*])

/-- A text of `nestAst`. -/
def nestText : Str :=
  chars! "export start S: ({ of: S } | { text: string } | number) = [\n  \"(\" <s: S> \")\" => ({ of: s }),\n  <t: \"x\"> => ({ text: t }),\n  r\"[0-9]+\" => (0 /* any */)\n]"

set_option maxRecDepth 20000 in
theorem nest_parse : parseGrammar nestText = .ok nestAst := ok_of (by decide +kernel)

theorem nest_reads : ReadsGrammar nestText nestAst (startOf nestAst) :=
  ⟨(C49_reads _ _).mp nest_parse, nest_generated.first⟩

/-- The terminals of `nestAst`. -/
def nestTerms : List Sym := [.strLit "(".toList, .strLit ")".toList, .strLit "x".toList, .regex "[0-9]+".toList]

theorem nest_terms {s : Sym} (h : HasTerm nestAst s) : s ∈ nestTerms := by
  unfold nestTerms
  have := (Grammar.term_tokens nest_expressible nest_generated.ast h.1).mpr h
  rw [nest_tokens] at this
  simp only [List.mem_cons, List.not_mem_nil, or_false] at this ⊢
  rcases this with rfl | rfl | rfl | rfl | rfl | rfl
  · exact h.1.elim
  · simp
  · simp
  · simp
  · exact h.1.elim
  · simp

theorem nest_ranges {m : Match} : TermRange nestRx nestAst m ↔ m ∈ rangesOf nestDefs :=
  (Grammar.ranges_iff nest_expressible nest_generated.ast nest_defs m).symm

theorem nest_usable : Usable nestRx 300 nestAst where
  names := ⟨(namesOkB_sound (by decide +kernel) : NamesOk nestAst).distinct, (namesOkB_sound (by decide +kernel) : NamesOk nestAst).noStack,
    nest_noHiding, nest_tsNames, fun p hp => (nest_writable.heads p hp).2, fun p hp b hb s hs n hn => (nest_writable.refs p hp b hb s hs n hn).2⟩
  terms := by
    refine ⟨fun s t hs ht => ?_, fun s hs => ?_, fun s hs => ?_, nest_writable.regexes, fun rs h al hal => ?_, fun m hm => ?_⟩
    · have key : ∀ s ∈ nestTerms, ∀ t ∈ nestTerms, spelling s = spelling t → s = t := by decide +kernel
      exact key s (nest_terms hs) t (nest_terms ht)
    · have key : ∀ s ∈ nestTerms, spelling s ≠ "EOF".toList := by decide +kernel
      exact key s (nest_terms hs)
    · have key : ∀ s ∈ nestTerms, '\\' ∉ spelling s ∧ '\'' ∉ spelling s ∧ ∀ c ∈ spelling s, isBreak c = false := by decide +kernel
      exact key s (nest_terms hs)
    · rw [ofList_ext (l' := rangesOf nestDefs) fun m => (h m).trans nest_ranges] at hal
      have : Overlap.removeOverlap (ofList (rangesOf nestDefs)) = .ok [⟨40, 41⟩, ⟨41, 42⟩, ⟨48, 58⟩, ⟨120, 121⟩] := by rfl
      rw [this] at hal
      cases hal
      decide
    · have key : ∀ m ∈ rangesOf nestDefs, m.lo < 300 ∧ (m.hi < 300 ∨ m.hi = 0x110000) := by decide +kernel
      exact key m (nest_ranges.mp hm)
  code := ⟨nest_readable, nest_writable.closed, nest_typed⟩
  chars := by decide
  bodies := by decide

theorem nest_goodRanges : GoodRanges nestRx nestAst := by
  refine ⟨fun rs h => ?_, fun r h hr hx => ?_⟩
  · have h2 : TermAfter nestRx nestAst = After (nestDefs.map Prod.snd) := by
      funext w m; exact propext (Grammar.after_iff nest_expressible nest_generated.ast nest_defs w m).symm
    have := nest_atoms
    unfold AtomsOk at this
    rw [h2]
    unfold Fits at this ⊢
    rw [ofList_ext (l' := (nestDefs.map Prod.snd).flatMap ranges) fun m => ((h m).trans nest_ranges).trans (by simp [rangesOf, List.flatMap_map])]
    exact this
  · have hm := (Grammar.regex_tokens nest_expressible nest_generated.ast r).mpr hr
    obtain ⟨d, hd, e⟩ := (Grammar.tokenDefs_mem nest_defs h).mpr (.inr ⟨r, hm, hx⟩)
    exact e ▸ nest_nonVoid d hd

theorem nest_kept : AllKept nestAst := by
  intro g hg
  obtain rfl : g = lower nestAst := Except.ok.inj (hg.symm.trans nest_generated.ast)
  exact (C26_exact nest_expressible nest_generated.ast (noCollisions_id _ _) nest_generated.built.tables).mp nest_transitions

-- C65: the hypotheses for `nestText`, and what `Parse<L.Lex<"(x)">>` denotes in the project.
example : ReadsGrammar nestText nestAst (startOf nestAst) ∧ RegexesOk nestRx nestAst ∧
    Buildable (AstRule nestAst) (startOf nestAst).name ∧ ¬ Clash (lower nestAst) ∧ Usable nestRx 300 nestAst ∧ GoodRanges nestRx nestAst ∧ AllKept nestAst ∧
    ∃ out files, compile id nestRx (fun _ l => l) nestText = .ok out ∧ TsProject.ReadAs (compiledText 300 out) files ∧
      TsProject.Denotes files .parse (parseOfLex "(x)".toList)
        (.tup [kindValue "S".toList (some (Lisp.record [("of", Lisp.record [("text", .str "x".toList)])]))]) := by
  have hw := (compile_eq (hash := id) (rx := nestRx) (ord := fun _ l => l) nest_reads nest_generated.ast).2.mpr ⟨_, nest_generated.new⟩
  obtain ⟨ps, start, g, h1, h2, h3, h4, h5⟩ := (C64_writes reorders_id (textNoCollisions_id _)).mp hw
  obtain ⟨rfl, rfl⟩ := nest_reads.unique h1
  obtain rfl : g = lower nestAst := Except.ok.inj (h2.symm.trans nest_generated.ast)
  refine ⟨h1, h3, h4, h5, nest_usable, nest_goodRanges, nest_kept, ?_⟩
  obtain ⟨out, files, ds, k1, k2, _, k3, _, k4⟩ := C65_text_partial (hash := id) reorders_id (textNoCollisions_id _) h1 h2 h3 h4 h5 nest_usable nest_goodRanges
  refine ⟨out, files, k1, k2, ?_⟩
  obtain rfl : ds = nestDefs := Except.ok.inj (k3.symm.trans nest_defs)
  obtain ⟨out, err, m1, m2, m3⟩ := k4 "(x)".toList (by decide) (by rw [charCode_fun]; decide +kernel)
  obtain ⟨rfl, rfl⟩ := m2 _ _ nest_scan
  have hn : (startOf nestAst).name = "S".toList := by decide +kernel
  rw [hn] at m3
  rcases m3 with ⟨i, c, h, _⟩ | ⟨_, ws, h4, h5, _⟩
  · cases h
  · have hws : ws = [.strLit "(".toList, .strLit "x".toList, .strLit ")".toList] := by
      rw [nest_syms] at h4
      exact (List.map_injective_iff.mpr (fun _ _ h => Option.some.inj h) h4).symm
    subst hws
    exact (h5 _).mpr ⟨nestTree, nest_tree, C65_kept (textNoCollisions_id _) nest_reads nest_generated.ast k1 nest_kept (hn ▸ nest_tree),
      by decide, nest_eval⟩

/-- A text of `crossAst`. -/
def crossText : Str :=
  chars! "export start S: (number) = [\n  r\"[a-d]\" => (0)\n]\nT: (number) = [\n  \"cx\" r\"[b-j]\" r\"[c-t]\" => (1)\n]"

set_option maxRecDepth 20000 in
theorem cross_parse : parseGrammar crossText = .ok crossAst := ok_of (by decide +kernel)

theorem cross_reads : ReadsGrammar crossText crossAst (startOf crossAst) :=
  ⟨(C49_reads _ _).mp cross_parse, cross_emitted.gen.first⟩

theorem cross_defs : Grammar.tokenDefs munchRx 0 (lower crossAst).tokens = .ok munchDefs := by
  rw [cross_tokens]; exact munch_defs

theorem cross_ranges {m : Match} : TermRange munchRx crossAst m ↔ m ∈ rangesOf munchDefs :=
  (Grammar.ranges_iff cross_emitted.gen.expr cross_emitted.gen.ast cross_defs m).symm

/-- The terminals of `crossAst`. -/
def crossTerms : List Sym := [.strLit "cx".toList, .regex "[a-d]".toList, .regex "[b-j]".toList, .regex "[c-t]".toList]

theorem cross_terms {s : Sym} (h : HasTerm crossAst s) : s ∈ crossTerms := by
  unfold crossTerms
  have := (Grammar.term_tokens cross_emitted.gen.expr cross_emitted.gen.ast h.1).mpr h
  rw [cross_tokens, munch_tokens] at this
  simp only [List.mem_cons, List.not_mem_nil, or_false] at this ⊢
  rcases this with rfl | rfl | rfl | rfl | rfl | rfl
  · exact h.1.elim
  · simp
  · exact h.1.elim
  · simp
  · simp
  · simp

theorem cross_usable : Usable munchRx 5000 crossAst where
  names := ⟨(namesOkB_sound (by decide +kernel) : NamesOk crossAst).distinct, (namesOkB_sound (by decide +kernel) : NamesOk crossAst).noStack,
    noHidingB_sound (by decide +kernel), cross_tsNames, fun p hp => (cross_writable.heads p hp).2,
    fun p hp b hb s hs n hn => (cross_writable.refs p hp b hb s hs n hn).2⟩
  terms := by
    refine ⟨fun s t hs ht => ?_, fun s hs => ?_, fun s hs => ?_, cross_writable.regexes, fun rs h al hal => ?_, fun m hm => ?_⟩
    · have key : ∀ s ∈ crossTerms, ∀ t ∈ crossTerms, spelling s = spelling t → s = t := by decide +kernel
      exact key s (cross_terms hs) t (cross_terms ht)
    · have key : ∀ s ∈ crossTerms, spelling s ≠ "EOF".toList := by decide +kernel
      exact key s (cross_terms hs)
    · have key : ∀ s ∈ crossTerms, '\\' ∉ spelling s ∧ '\'' ∉ spelling s ∧ ∀ c ∈ spelling s, isBreak c = false := by decide +kernel
      exact key s (cross_terms hs)
    · rw [ofList_ext (l' := rangesOf munchDefs) fun m => (h m).trans cross_ranges] at hal
      have key : (match Overlap.removeOverlap (ofList (rangesOf munchDefs)) with | .ok al => decide (al.length ≤ 5000) | .error _ => true) = true := by
        decide +kernel
      rw [hal] at key
      exact of_decide_eq_true key
    · have key : ∀ m ∈ rangesOf munchDefs, m.lo < 5000 ∧ (m.hi < 5000 ∨ m.hi = 0x110000) := by decide +kernel
      exact key m (cross_ranges.mp hm)
  code := ⟨cross_readable, cross_writable.closed, cross_typed⟩
  chars := by decide
  bodies := by decide

-- C65_exact, C65_text_exact: the hypotheses for `crossText`, whose pieces do not fit (`C33_false`).
example : TextNoCollisions id crossText ∧ ReadsGrammar crossText crossAst (startOf crossAst) ∧
    Grammar.fromAst crossAst = .ok (lower crossAst) ∧ RegexesOk munchRx crossAst ∧
    Buildable (AstRule crossAst) (startOf crossAst).name ∧ ¬ Clash (lower crossAst) ∧ Usable munchRx 5000 crossAst ∧
    ∃ out files, compile id munchRx (fun _ l => l) crossText = .ok out ∧ TsProject.ReadAs (compiledText 5000 out) files := by
  have hast := cross_emitted.gen.ast
  have hw := (compile_eq (hash := id) (rx := munchRx) (ord := fun _ l => l) cross_reads hast).2.mpr ⟨_, cross_emitted.gen.new⟩
  obtain ⟨ps, start, g, h1, h2, h3, h4, h5⟩ := (C64_writes reorders_id (textNoCollisions_id _)).mp hw
  obtain ⟨rfl, rfl⟩ := cross_reads.unique h1
  obtain rfl : g = lower crossAst := Except.ok.inj (h2.symm.trans hast)
  obtain ⟨out, files, _, _, k1, k2, _⟩ := C65_text_exact (hash := id) reorders_id (textNoCollisions_id _) h1 h2 h3 h4 h5 cross_usable
  exact ⟨textNoCollisions_id _, h1, h2, h3, h4, h5, cross_usable, out, files, k1, k2⟩

end Verif.Props
