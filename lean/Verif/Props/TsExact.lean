import Verif.Props.TsFiles
import Verif.Props.Written
import Verif.Props.LexExact
import Verif.Proofs.PieceScan

/-! # C36, C54, C57, C58, C61 whatever the ranges of the tokens

What `Lex` and `Parse` compute when the pieces of the alphabet need not fit the ranges and regexes may match nothing: as
in `LexExact`, the text is read piece by piece. -/

namespace Verif.Props
open Verif Spec MiniTs

variable {U : User}

/-- C36 for every list of tokens whose labels begin within the tables: `Lex` returns the cut of the text read
piece by piece, or reports the first character after which nothing can be read. -/
theorem C36_exact {toks : List (TokenDef × Hir)} {lx : Lex} {ord : Nfa.Order} (ho : Reorders ord)
    (h : Lex.fromTokens ord toks = .ok lx) {max : Nat} {input : Str} (hcov : Covered max (LexGen.Tables.new lx) input)
    (hsup : ∀ c ∈ input, (LexGen.charCode c).isSome = true) :
    ∃ al out err, Overlap.removeOverlap (ofList (rangesOf toks)) = .ok al ∧
      MunchErr (PToken al toks) (PViable al toks) 0 input out err ∧
      (∀ out' err', MunchErr (PToken al toks) (PViable al toks) 0 input out' err' → out' = out ∧ err' = err) ∧
      (∀ p ∈ out, ∃ q, toks[p.2.1]? = some q ∧ Matches q.2 p.2.2) ∧
      Ts.lex max LexGen.charCode (LexGen.Tables.new lx) (Lex.lexFuel input) input =
        match err with
        | none => .tokens (out.map (fun p => some ⟨(tokenOf toks p).name, (tokenOf toks p).val.map .val⟩) ++
            [some ⟨"EOF".toList, none⟩])
        | some (i, c) => .invalidSymbol c (some i) := by
  obtain ⟨N, acc, al, D, s0, M, P⟩ := Lex.fromTokens_pmade (reorders_ok ho) h
  obtain ⟨out, err, h1, h2⟩ := M.ptsLex P (covered_fits hcov) hcov.input (supported hsup)
  refine ⟨al, out, err, built_alphabet M.built (combined_labels M.comb), h1, fun _ _ h' => Lex.pmunchErr_unique h1 h',
    (Lex.munchErr_mem (M.ptoken_sound P) h1).1, ?_⟩
  rw [h2]
  cases err with
  | none => rfl
  | some p => rfl

/-- C57 for every list of tokens whose labels begin within the tables: the type of `Lex<"input">` by the declarations
of the files. -/
theorem C57_exact {toks : List (TokenDef × Hir)} {lx : Lex} {ord : Nfa.Order} (ho : Reorders ord)
    (h : Lex.fromTokens ord toks = .ok lx)
    {G : Gen} (hc : G.chars = LexGen.charMap) (hl : G.lex = LexGen.Tables.new lx)
    {input : Str} (hcov : Covered G.max (LexGen.Tables.new lx) input)
    (hsup : ∀ c ∈ input, (LexGen.charCode c).isSome = true) :
    ∃ al out err, Overlap.removeOverlap (ofList (rangesOf toks)) = .ok al ∧
      MunchErr (PToken al toks) (PViable al toks) 0 input out err ∧
      (∀ out' err', MunchErr (PToken al toks) (PViable al toks) 0 input out' err' → out' = out ∧ err' = err) ∧
      TypeIs U G .lex (applied "Lex".toList [.str input])
        (match err with
        | none => .tup (out.map (fun p => kindValue (tokenOf toks p).name ((tokenOf toks p).val.map .str)) ++
            [kindValue "EOF".toList none])
        | some (i, c) => .str ("invalid symbol: `".toList ++ [c] ++ "` at index ".toList ++ LexGen.digits i)) := by
  obtain ⟨al, out, err, h0, h1, h2, _, h3⟩ := C36_exact ho h hcov hsup
  exact ⟨al, out, err, h0, h1, h2, source_lex ho h hc hl h3⟩

section
variable {H : Type} [DecidableEq H] {hash : List Item → H} {rx : Str → Option Hir} {ord : Nfa.Order}
  {ps : List Ast.Prod} {start : Ast.Prod} {g : Grammar} {l : Lalr} {T : ParseGen.Tables} {max : Nat}
  {V : Type} {S : Ts.Sem V}

/-- C54 whatever the ranges: as `C54_value_partial`, with the cut of the text read piece by piece. -/
theorem C54_exact (hE : Emitted hash rx ord ps start g l T max) (ho : Reorders ord) (hw : WellTyped S ps)
    (hh : NoHiding ps) (hc : NoCollisions hash g (Lalr.depthOf g))
    {ds : List (TokenDef × Hir)} (hd : Grammar.tokenDefs rx 0 g.tokens = .ok ds)
    {input : Str} (hcov : Covered max (LexGen.Tables.new l.lexer) input) (hlt : input.length < max)
    (hsup : ∀ c ∈ input, (LexGen.charCode c).isSome = true) :
    ∃ al out err, Overlap.removeOverlap (ofList (rangesOf ds)) = .ok al ∧
      MunchErr (PToken al ds) (PViable al ds) 0 input out err ∧
      (∀ out' err', MunchErr (PToken al ds) (PViable al ds) 0 input out' err' → out' = out ∧ err' = err) ∧
      ((∃ i c, err = some (i, c) ∧
        Ts.lex max LexGen.charCode (LexGen.Tables.new l.lexer) (Lex.lexFuel input) input = .invalidSymbol c (some i)) ∨
       (err = none ∧ ∃ (toks : List Ts.Tok) (ws : List Sym),
        Ts.lex max LexGen.charCode (LexGen.Tables.new l.lexer) (Lex.lexFuel input) input = .tokens (toks.map some) ∧
        toks = (out.map (tokenOf ds)).map tsTok ++ [⟨"EOF".toList, none⟩] ∧
        out.map (pieceSym g ds) = ws.map some ∧
        (∀ v, Ts.parse max S T toks = .symbols [.nonTerm start.name v] ↔
          ∃ f, IsTree g.prods start.name f ws ∧ KeptTree g f ∧ ws.length + f.post.length < 50 ∧
            Eval S ps f (out.map (·.2.2)) [v]) ∧
        ((∃ v, Ts.parse max S T toks = .symbols [.nonTerm start.name v]) ∨ Ts.parse max S T toks = .exceeded ∨
          (∃ a syms, Ts.parse max S T toks = .invalidToken a syms) ∨
          (Ts.parse max S T toks = .noGoto ∧ ¬ AllTransitions g l.states l.action l.goto)))) := by
  obtain ⟨_, hx, _⟩ := new_ok hE.gen.new
  obtain ⟨ds', h1, h2⟩ := Grammar.lexer_ok hx
  obtain rfl : ds' = ds := Except.ok.inj (h1.symm.trans hd)
  obtain ⟨al, out, err, b0, b1, b2, b4, b3⟩ := C36_exact ho h2 hcov hsup
  obtain ⟨N, acc, al', D, s0, M, P⟩ := Lex.fromTokens_pmade (reorders_ok ho) h2
  obtain rfl : al = al' := Except.ok.inj (b0.symm.trans (built_alphabet M.built (combined_labels M.comb)))
  exact ⟨al, out, err, b0, b1, b2, pipeline_value hE ho hw hh hc hd hlt (Lex.munchErr_mem (M.ptoken_sound P) b1) b3⟩

/-- C58 whatever the ranges: as `C58_value_partial`, with the cut of the text read piece by piece. -/
theorem C58_exact (hE : Emitted hash rx ord ps start g l T max) (ho : Reorders ord) (hN : TsNames ps)
    (hw : WellTyped (semOf U) ps) (hh : NoHiding ps) (hc : NoCollisions hash g (Lalr.depthOf g))
    {ds : List (TokenDef × Hir)} (hd : Grammar.tokenDefs rx 0 g.tokens = .ok ds)
    {input : Str} (hcov : Covered max (LexGen.Tables.new l.lexer) input) (hlt : input.length < max)
    (hsup : ∀ c ∈ input, (LexGen.charCode c).isSome = true) :
    ∃ al out err, Overlap.removeOverlap (ofList (rangesOf ds)) = .ok al ∧
      MunchErr (PToken al ds) (PViable al ds) 0 input out err ∧
      (∀ out' err', MunchErr (PToken al ds) (PViable al ds) 0 input out' err' → out' = out ∧ err' = err) ∧
      ((∃ i c, err = some (i, c) ∧
        TypeIs U (genOf max l T) .parse (applied "L.Lex".toList [.str input])
          (.str ("invalid symbol: `".toList ++ [c] ++ "` at index ".toList ++ LexGen.digits i)) ∧
        ∀ t, TypeIs U (genOf max l T) .parse (parseOfLex input) t ↔
          t = .tup [.str "error: invalid token undefined".toList, .tup []]) ∨
       (err = none ∧ ∃ ws : List Sym, out.map (pieceSym g ds) = ws.map some ∧
        (∀ v, TypeIs U (genOf max l T) .parse (parseOfLex input) (.tup [kindValue start.name (some v)]) ↔
          ∃ f, IsTree g.prods start.name f ws ∧ KeptTree g f ∧ ws.length + f.post.length < 50 ∧
            Eval (semOf U) ps f (out.map (·.2.2)) [v]) ∧
        ((∃ v, TypeIs U (genOf max l T) .parse (parseOfLex input) (.tup [kindValue start.name (some v)])) ∨
          TypeIs U (genOf max l T) .parse (parseOfLex input) (.str "exceeded max recursion depth".toList) ∨
          (∃ m ts, TypeIs U (genOf max l T) .parse (parseOfLex input)
            (.tup [.str ("error: invalid token ".toList ++ m), .tup ts])) ∨
          (TypeIs U (genOf max l T) .parse (parseOfLex input) (.str "not good".toList) ∧
            ¬ AllTransitions g l.states l.action l.goto)))) := by
  obtain ⟨al, out, err, b0, b1, b2, b3⟩ := C54_exact hE ho hw hh hc hd hcov hlt hsup
  exact ⟨al, out, err, b0, b1, b2, source_value hE ho hN (by have := hcov.chars; omega) b3⟩

/-- C61 whatever the ranges: as `C61_value_partial`, with the cut of the text read piece by piece. -/
theorem C61_exact (hE : Emitted hash rx ord ps start g l T max) (ho : Reorders ord) (hN : TsNames ps) (hR : Readable ps)
    (hW : TsWritable ps) {files : Mod → TsProject.File} (hF : TsProject.ReadAs (projectText ps max l T) files)
    (hw : WellTyped (semOf (userOf ps)) ps) (hh : NoHiding ps) (hc : NoCollisions hash g (Lalr.depthOf g))
    {ds : List (TokenDef × Hir)} (hd : Grammar.tokenDefs rx 0 g.tokens = .ok ds)
    {input : Str} (hcov : Covered max (LexGen.Tables.new l.lexer) input) (hlt : input.length < max)
    (hsup : ∀ c ∈ input, (LexGen.charCode c).isSome = true) :
    ∃ al out err, Overlap.removeOverlap (ofList (rangesOf ds)) = .ok al ∧
      MunchErr (PToken al ds) (PViable al ds) 0 input out err ∧
      (∀ out' err', MunchErr (PToken al ds) (PViable al ds) 0 input out' err' → out' = out ∧ err' = err) ∧
      ((∃ i c, err = some (i, c) ∧
        TsProject.Denotes files .parse (applied "L.Lex".toList [.str input])
          (.str ("invalid symbol: `".toList ++ [c] ++ "` at index ".toList ++ LexGen.digits i)) ∧
        ∀ t, TsProject.Denotes files .parse (parseOfLex input) t ↔
          t = .tup [.str "error: invalid token undefined".toList, .tup []]) ∨
       (err = none ∧ ∃ ws : List Sym, out.map (pieceSym g ds) = ws.map some ∧
        (∀ v, TsProject.Denotes files .parse (parseOfLex input) (.tup [kindValue start.name (some v)]) ↔
          ∃ f, IsTree g.prods start.name f ws ∧ KeptTree g f ∧ ws.length + f.post.length < 50 ∧
            Eval (semOf (userOf ps)) ps f (out.map (·.2.2)) [v]) ∧
        ((∃ v, TsProject.Denotes files .parse (parseOfLex input) (.tup [kindValue start.name (some v)])) ∨
          TsProject.Denotes files .parse (parseOfLex input) (.str "exceeded max recursion depth".toList) ∨
          (∃ m ts, TsProject.Denotes files .parse (parseOfLex input)
            (.tup [.str ("error: invalid token ".toList ++ m), .tup ts])) ∨
          (TsProject.Denotes files .parse (parseOfLex input) (.str "not good".toList) ∧
            ¬ AllTransitions g l.states l.action l.goto)))) := by
  have he : codeFree (parseOfLex input) = true := rfl
  have he' : codeFree (applied "L.Lex".toList [.str input]) = true := rfl
  have hm : 50 ≤ max := by have := hcov.chars; omega
  simp only [C61_meaning hE ho hN hR hW hm hF (m := .parse) (by simp) he, C61_meaning hE ho hN hR hW hm hF (m := .parse) (by simp) he']
  exact C58_exact hE ho hN hw hh hc hd hcov hlt hsup

end

/-! ## The hypotheses hold for the grammar of `C33_false`, whose pieces do not fit -/

/-- The generated parser. -/
def munchL : Lalr := (Lalr.new id munchRx (fun _ l => l) (lower munchAst)).toOption.getD
  ⟨⟨[], [], [], []⟩, ⟨⟨[], [], [], []⟩, [], []⟩, [], [], []⟩

/-- The generated tables. -/
def munchT : ParseGen.Tables := (ParseGen.generate munchAst munchL).toOption.getD ⟨[], [], [], [], [], []⟩

theorem munch_tokens : (lower munchAst).tokens = [.eof, .strLit "cx".toList, .nonTerm "S".toList, .regex "[a-d]".toList,
    .regex "[b-j]".toList, .regex "[c-t]".toList] := by decide +kernel

theorem munch_defs : Grammar.tokenDefs munchRx 0 (lower munchAst).tokens = .ok munchDefs := by rw [munch_tokens]; rfl

theorem munch_kinds : DistinctKinds (lower munchAst) := by
  refine ⟨?_, ?_⟩
  · unfold DistinctSpellings
    rw [munch_tokens]
    intro s hs t ht h1 h2 h3
    simp only [List.mem_cons, List.not_mem_nil, or_false] at hs ht
    rcases hs with rfl | rfl | rfl | rfl | rfl | rfl <;> rcases ht with rfl | rfl | rfl | rfl | rfl | rfl <;>
      first | rfl | exact False.elim h1 | exact False.elim h2 | (revert h3; decide)
  · rw [munch_tokens]
    intro s hs
    simp only [List.mem_cons, List.not_mem_nil, or_false] at hs
    rcases hs with rfl | rfl | rfl | rfl | rfl | rfl <;> intro h <;> first | exact False.elim h | decide

theorem munch_emitted : Emitted id munchRx (fun _ l => l) munchAst (startOf munchAst) (lower munchAst) munchL munchT 5000 :=
  ⟨⟨expressibleB_sound (by decide +kernel), startOf_eq (by decide +kernel), ok_of_isSome (by decide +kernel),
      ok_of_isSome (by decide +kernel)⟩,
    ok_of_isSome (by decide +kernel), namesOkB_sound (by decide +kernel), munch_kinds, by decide +kernel⟩

theorem munch_lexes : Ts.lex 5000 LexGen.charCode (LexGen.Tables.new munchL.lexer) (Lex.lexFuel "c".toList) "c".toList =
    .tokens [some ⟨"[a-d]".toList, some (.val "c".toList)⟩, some ⟨"EOF".toList, none⟩] := by
  rw [charCode_fun]
  decide +kernel

theorem munch_tsNames : TsNames munchAst := by
  have one : ∀ p ∈ munchAst, p.name.length = 1 := by decide
  refine ⟨by decide, by decide, ?_, by decide, ?_, ?_, ?_, ?_⟩
  · intro p hp i h
    have := one p hp
    rw [h] at this
    simp at this
  · intro p hp m h
    have := one p hp
    rw [h] at this
    simp at this
  · intro p hp i h
    have := one p hp
    rw [h] at this
    simp at this
  · decide
  · intro p hp b hb n k h
    simp only [munchAst, List.mem_cons, List.not_mem_nil, or_false] at hp
    rcases hp with rfl | rfl <;> simp only [List.mem_cons, List.not_mem_nil, or_false] at hb <;> subst hb <;> simp at h

theorem munch_typed : WellTyped (semOf wordUser) munchAst := by
  intro p hp b hb vs hvs
  simp only [munchAst, List.mem_cons, List.not_mem_nil, or_false] at hp
  rcases hp with rfl | rfl <;> simp only [List.mem_cons, List.not_mem_nil, or_false] at hb <;> subst hb
  · cases hvs with
    | cons h1 h2 => cases h2; exact ⟨_, rfl, rfl⟩
  · cases hvs with
    | cons h1 h2 =>
      cases h2 with
      | cons h1 h2 =>
        cases h2 with
        | cons h1 h2 => cases h2; exact ⟨_, rfl, rfl⟩

-- C36_exact, C54_exact, C57_exact, C58_exact: the hypotheses for the text `c`, and what `Lex` makes of it.
example : Emitted id munchRx (fun _ l => l) munchAst (startOf munchAst) (lower munchAst) munchL munchT 5000 ∧
    Reorders (fun _ l => l) ∧ TsNames munchAst ∧ WellTyped (semOf wordUser) munchAst ∧ WellTyped textSem munchAst ∧ NoHiding munchAst ∧
    NoCollisions (H := List Item) id (lower munchAst) (Lalr.depthOf (lower munchAst)) ∧
    Grammar.tokenDefs munchRx 0 (lower munchAst).tokens = .ok munchDefs ∧
    Covered 5000 (LexGen.Tables.new munchL.lexer) "c".toList ∧
    "c".toList.length < 5000 ∧ (∀ c ∈ "c".toList, (LexGen.charCode c).isSome = true) ∧
    Ts.lex 5000 LexGen.charCode (LexGen.Tables.new munchL.lexer) (Lex.lexFuel "c".toList) "c".toList =
      .tokens [some ⟨"[a-d]".toList, some (.val "c".toList)⟩, some ⟨"EOF".toList, none⟩] :=
  ⟨munch_emitted, reorders_id, munch_tsNames, munch_typed, fun _ _ _ _ _ _ => ⟨_, rfl, rfl⟩, noHidingB_sound (by decide +kernel),
    noCollisions_id _ _, munch_defs, by decide +kernel, by decide, by rw [charCode_fun]; decide +kernel, munch_lexes⟩

/-- `munchAst` with mapping code, so that its files can be written. -/
def crossAst : List Ast.Prod :=
  [⟨"S".toList, [⟨[.regex "[a-d]".toList], "0".toList⟩], true, "number".toList⟩,
   ⟨"T".toList, [⟨[.strLit "cx".toList, .regex "[b-j]".toList, .regex "[c-t]".toList], "1".toList⟩], false, "number".toList⟩]

/-- The generated parser. -/
def crossL : Lalr := (Lalr.new id munchRx (fun _ l => l) (lower crossAst)).toOption.getD
  ⟨⟨[], [], [], []⟩, ⟨⟨[], [], [], []⟩, [], []⟩, [], [], []⟩

/-- The generated tables. -/
def crossT : ParseGen.Tables := (ParseGen.generate crossAst crossL).toOption.getD ⟨[], [], [], [], [], []⟩

theorem cross_tokens : (lower crossAst).tokens = (lower munchAst).tokens := by decide +kernel

theorem cross_kinds : DistinctKinds (lower crossAst) := by
  have h := munch_kinds
  unfold DistinctKinds DistinctSpellings at h ⊢
  rw [cross_tokens]
  exact h

theorem cross_emitted : Emitted id munchRx (fun _ l => l) crossAst (startOf crossAst) (lower crossAst) crossL crossT 5000 :=
  ⟨⟨expressibleB_sound (by decide +kernel), startOf_eq (by decide +kernel), ok_of_isSome (by decide +kernel),
      ok_of_isSome (by decide +kernel)⟩,
    ok_of_isSome (by decide +kernel), namesOkB_sound (by decide +kernel), cross_kinds, by decide +kernel⟩

set_option maxRecDepth 20000 in
theorem cross_readable : Readable crossAst := readableB_sound (by decide +kernel)

theorem cross_writable : TsWritable crossAst := tsWritableB_sound (by decide +kernel)

theorem cross_tsNames : TsNames crossAst := by
  have one : ∀ p ∈ crossAst, p.name.length = 1 := by decide
  refine ⟨by decide, by decide, ?_, by decide, ?_, ?_, ?_, ?_⟩
  · intro p hp i h
    have := one p hp
    rw [h] at this
    simp at this
  · intro p hp m h
    have := one p hp
    rw [h] at this
    simp at this
  · intro p hp i h
    have := one p hp
    rw [h] at this
    simp at this
  · decide
  · intro p hp b hb n k h
    simp only [crossAst, List.mem_cons, List.not_mem_nil, or_false] at hp
    rcases hp with rfl | rfl <;> simp only [List.mem_cons, List.not_mem_nil, or_false] at hb <;> subst hb <;> simp at h

theorem read_number : readType "number".toList = some (.lit .number) := readsAs_eq (by decide +kernel)
theorem read_zero : readType "0".toList = some (.lit (.num 0)) := readsAs_eq (by decide +kernel)
theorem read_uno : readType "1".toList = some (.lit (.num 1)) := readsAs_eq (by decide +kernel)

theorem code_zero (env) : (userOf crossAst).code "0".toList env = some (.num 0) := by
  simp only [userOf, read_zero, Option.bind_some]
  simp [ev]
theorem code_uno (env) : (userOf crossAst).code "1".toList env = some (.num 1) := by
  simp only [userOf, read_uno, Option.bind_some]
  simp [ev]

theorem has_number {k : Str} (hk : k = "S".toList ∨ k = "T".toList) (n : Nat) : Has crossAst k (.num n) := by
  refine has_of (t := .number) ?_ (n := 0) (by simp [accepts, lift]) (by simp)
  rcases hk with rfl | rfl <;> rw [declared_eq (by decide +kernel) read_number] <;> simp [declTy]

theorem cross_typed : WellTyped (semOf (userOf crossAst)) crossAst := by
  intro p hp b hb vs hvs
  simp only [crossAst, List.mem_cons, List.not_mem_nil, or_false] at hp
  rcases hp with rfl | rfl <;> simp only [List.mem_cons, List.not_mem_nil, or_false] at hb <;> subst hb
  · exact ⟨_, code_zero (bindings [.regex "[a-d]".toList] vs), has_number (.inl rfl) _⟩
  · exact ⟨_, code_uno (bindings [.strLit "cx".toList, .regex "[b-j]".toList, .regex "[c-t]".toList] vs), has_number (.inr rfl) _⟩

-- C61_exact: the hypotheses for the text `c` of `crossAst`.
example : Emitted id munchRx (fun _ l => l) crossAst (startOf crossAst) (lower crossAst) crossL crossT 5000 ∧
    Reorders (fun _ l => l) ∧ TsNames crossAst ∧ Readable crossAst ∧ TsWritable crossAst ∧
    (∃ files, TsProject.ReadAs (projectText crossAst 5000 crossL crossT) files) ∧
    WellTyped (semOf (userOf crossAst)) crossAst ∧ NoHiding crossAst ∧
    NoCollisions (H := List Item) id (lower crossAst) (Lalr.depthOf (lower crossAst)) ∧
    Grammar.tokenDefs munchRx 0 (lower crossAst).tokens = .ok munchDefs ∧
    Covered 5000 (LexGen.Tables.new crossL.lexer) "c".toList ∧
    "c".toList.length < 5000 ∧ (∀ c ∈ "c".toList, (LexGen.charCode c).isSome = true) :=
  ⟨cross_emitted, reorders_id, cross_tsNames, cross_readable, cross_writable,
    ⟨_, (C61_project cross_emitted reorders_id cross_readable cross_writable _).mpr rfl⟩, cross_typed,
    noHidingB_sound (by decide +kernel), noCollisions_id _ _, by rw [cross_tokens]; exact munch_defs,
    by decide +kernel, by decide, by rw [charCode_fun]; decide +kernel⟩

end Verif.Props
