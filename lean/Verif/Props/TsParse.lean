import Verif.Proofs.TsParseOk
import Verif.Props.EndToEnd

/-! # Properties of the type-level parser (C37, C38) -/

namespace Verif.Props
open Verif Spec

/-- The parser has been generated, its tables written out, and the grammar avoids the
clashes of names listed in `NamesOk` and `DistinctKinds`; `max` is the size of the
arithmetic tables. -/
structure Emitted {H : Type} [DecidableEq H] (hash : List Item → H) (rx : Str → Option Hir) (ord : Nfa.Order)
    (ps : List Ast.Prod) (start : Ast.Prod) (g : Grammar) (l : Lalr) (T : ParseGen.Tables) (max : Nat) : Prop where
  gen : Generated hash rx ord ps start g l
  tables : ParseGen.generate ps l = .ok T
  names : NamesOk ps
  kinds : DistinctKinds g
  fits : ∀ p ∈ g.prods, p.inputs.length ≤ max

section
variable {H : Type} [DecidableEq H] {hash : List Item → H} {rx : Str → Option Hir} {ord : Nfa.Order}
  {ps : List Ast.Prod} {start : Ast.Prod} {g : Grammar} {l : Lalr} {T : ParseGen.Tables} {max : Nat}
  {V : Type} {S : Ts.Sem V} {toks : List Ts.Tok} {ss : List Sym} {ks : List Nat}

theorem Emitted.genOk (hE : Emitted hash rx ord ps start g l T max) : ParseGen.GenOk ps g l T := by
  obtain ⟨T', h1, h2⟩ := ParseGen.generate_ok hE.gen.expr hE.names.written hE.gen.ast (new_ok hE.gen.new).1
  rw [hE.tables] at h1; cases h1
  exact h2

/-- The tables are written out exactly if no named symbol lacks a name (`name.unwrap()`, src/codegen/parse_gen.rs:592)
or is inside a named one (`unreachable!()`, 366); that is so for every grammar file (C51). -/
theorem C37_generates (hG : Generated hash rx ord ps start g l) :
    (∃ T, ParseGen.generate ps l = .ok T) ↔ WrittenNames ps :=
  ⟨fun ⟨_, h⟩ => ParseGen.generate_written hG.expr h,
   fun hn => let ⟨T, h, _⟩ := ParseGen.generate_ok hG.expr hn hG.ast (new_ok hG.new).1; ⟨T, h⟩⟩

theorem parse_agree (hE : Emitted hash rx ord ps start g l T max) (ht : List.Forall₂ (TokenFor g) toks ss)
    (hk : Numbers g ks ss) (hl : toks.length ≤ max) {st : Lalr.PState} (hs : Lalr.startState ks = .ok st) :
    ∃ look, Lalr.TabSound g l.states l.action l.goto look ∧
      Ts.Agree S T ps g l.states look toks ks (Ts.parse max S T toks) (Lalr.run g l.action l.goto ks 50 st) := by
  have hok := hE.gen.built.ok
  obtain ⟨look, hT⟩ := hE.gen.built.sound
  refine ⟨look, hT, ?_⟩
  have G := hE.genOk
  have := Ts.simulate (S := S) hok hE.gen.expr hE.names hT G ht hk hl hE.fits 50 (syms := []) (prs := []) (used := [])
    (ws := []) (Lalr.Inv.start (look := look) (g := g) (lalr := l.states) hs)
    ⟨rfl, .nil, .nil, .nil, .nil, by cases ks <;> cases hs; rfl, by cases ks <;> cases hs; simp⟩
  unfold Ts.parse
  rw [Ts.tokenIndices_ok hok hE.kinds G.kinds ht hk]
  cases ks with
  | nil => cases hs
  | cons a ks => cases hs; simpa using this

theorem step_fuel {toks : List Nat} {st : Lalr.PState} : Lalr.step g l.action l.goto toks st ≠ .error .outOfFuel := by
  unfold Lalr.step
  split
  · simp
  · split
    · simp
    · split
      · simp
      · split
        · simp
        · split
          · simp
          · split <;> simp
    · simp
    · simp

theorem run_ok_iff {toks : List Nat} : ∀ {n : Nat} {st st' : Lalr.PState},
    Lalr.run g l.action l.goto toks n st = .ok st' ↔
      ∃ k, k < n ∧ Runs g l.action l.goto toks k st st' ∧ Lalr.step g l.action l.goto toks st' = .ok none
  | 0, st, st' => by simp [Lalr.run]
  | n + 1, st, st' => by
    simp only [Lalr.run]
    cases h : Lalr.step g l.action l.goto toks st with
    | error e =>
      simp only [reduceCtorEq, false_iff, not_exists, not_and]
      rintro k _ hr h'
      cases hr with
      | refl => rw [h] at h'; cases h'
      | head h1 _ => rw [h] at h1; cases h1
    | ok o =>
      cases o with
      | none =>
        simp only [Except.ok.injEq]
        constructor
        · rintro rfl; exact ⟨0, by omega, .refl, h⟩
        · rintro ⟨k, _, hr, h'⟩
          cases hr with
          | refl => rfl
          | head h1 _ => rw [h] at h1; cases h1
      | some st1 =>
        simp only
        rw [run_ok_iff]
        constructor
        · rintro ⟨k, h1, h2, h3⟩; exact ⟨k + 1, by omega, .head h h2, h3⟩
        · rintro ⟨k, h1, h2, h3⟩
          cases h2 with
          | refl => rw [h] at h3; cases h3
          | head h4 h5 => rw [h] at h4; cases h4; exact ⟨_, by omega, h5, h3⟩

theorem run_fuel_iff {toks : List Nat} : ∀ {n : Nat} {st : Lalr.PState},
    Lalr.run g l.action l.goto toks n st = .error .outOfFuel ↔ ∃ st', Runs g l.action l.goto toks n st st'
  | 0, st => by
    simp only [Lalr.run, true_iff]
    exact ⟨st, .refl⟩
  | n + 1, st => by
    simp only [Lalr.run]
    cases h : Lalr.step g l.action l.goto toks st with
    | error e =>
      simp only [Except.error.injEq]
      constructor
      · rintro rfl; exact absurd h step_fuel
      · rintro ⟨st', hr⟩
        cases hr with
        | head h1 _ => rw [h] at h1; cases h1
    | ok o =>
      cases o with
      | none =>
        simp only [reduceCtorEq, false_iff]
        rintro ⟨st', hr⟩
        cases hr with
        | head h1 _ => rw [h] at h1; cases h1
      | some st1 =>
        simp only
        rw [run_fuel_iff]
        constructor
        · rintro ⟨st', hr⟩; exact ⟨st', .head h hr⟩
        · rintro ⟨st', hr⟩
          cases hr with
          | head h1 h2 => rw [h] at h1; cases h1; exact ⟨st', h2⟩

/-- Every move reads a token or makes a reduction. -/
theorem runs_count {toks : List Nat} {n : Nat} {st st' : Lalr.PState} (h : Runs g l.action l.goto toks n st st') :
    st'.i + st'.out.length = st.i + st.out.length + n := by
  induction h with
  | refl => rfl
  | @head n st st1 st2 h1 _ ih =>
    have : st1.i + st1.out.length = st.i + st.out.length + 1 := by
      revert h1
      unfold Lalr.step
      split
      · simp
      · split
        · rename_i j _
          intro h
          cases h
          simp only
          omega
        · split
          · simp
          · split
            · simp
            · split
              · simp
              · split
                · simp
                · intro h
                  cases h
                  simp; omega
        · simp
        · simp
    omega

/-! ## C37 -/

/-- C37, for grammars without clashes of names (`NamesOk`, `NoHiding`) and well typed mapping code: on tokens
with the numbers `ks`, `Parse` accepts exactly when the Rust loop accepts after fewer
than 50 moves, reports `exceeded max recursion depth` exactly when the loop makes 50
moves, and reports an invalid token exactly when the loop finds one before that.
Missing: clashing names (`C37_false`, `C37_false_hidden`). -/
theorem C37_agrees_partial (hE : Emitted hash rx ord ps start g l T max) (hw : WellTyped S ps) (hh : NoHiding ps)
    (ht : List.Forall₂ (TokenFor g) toks ss) (hk : Numbers g ks ss) (hl : toks.length ≤ max)
    {st : Lalr.PState} (hs : Lalr.startState ks = .ok st) :
    ((∃ syms, Ts.parse max S T toks = .symbols syms) ↔
      ∃ n st', n < 50 ∧ Runs g l.action l.goto ks n st st' ∧ Lalr.step g l.action l.goto ks st' = .ok none) ∧
    (Ts.parse max S T toks = .exceeded ↔ ∃ st', Runs g l.action l.goto ks 50 st st') ∧
    ((∃ a syms, Ts.parse max S T toks = .invalidToken a syms) ↔
      Lalr.parseIdx g l.action l.goto 50 ks = .error .invalidToken) := by
  obtain ⟨look, hT, hA⟩ := parse_agree (S := S) hE ht hk hl hs
  have e1 : (∃ n st', n < 50 ∧ Runs g l.action l.goto ks n st st' ∧ Lalr.step g l.action l.goto ks st' = .ok none) ↔
      ∃ st', Lalr.run g l.action l.goto ks 50 st = .ok st' := by
    constructor
    · rintro ⟨n, st', h⟩; exact ⟨st', run_ok_iff.mpr ⟨n, h⟩⟩
    · rintro ⟨st', h⟩; obtain ⟨n, h⟩ := run_ok_iff.mp h; exact ⟨n, st', h⟩
  have e2 : Lalr.parseIdx g l.action l.goto 50 ks = .error .invalidToken ↔
      Lalr.run g l.action l.goto ks 50 st = .error .invalidToken := by
    unfold Lalr.parseIdx
    simp only [hs, bind, Except.bind]
    cases Lalr.run g l.action l.goto ks 50 st <;> simp [pure, Except.pure]
  rw [e1, e2, ← run_fuel_iff]
  generalize Ts.parse max S T toks = r at hA
  generalize Lalr.run g l.action l.goto ks 50 st = e at hA
  rcases hA with ⟨rfl, rfl⟩ | ⟨_, _, _, _, _, _, _, rfl, _, _, _, _, rfl⟩ | ⟨rfl, _, _, rfl⟩ | ⟨rfl, rfl⟩ | ⟨h, _⟩
  · simp
  · simp
  · simp
  · simp
  · exact absurd ⟨hw, hh⟩ h

/-- C37 without typing: whatever the mapping code does and whatever types its parameters hide, `Parse` accepts only what the
Rust parser accepts, and only exceeds its depth when the Rust parser makes 50 moves. -/
theorem C37_sound_partial (hE : Emitted hash rx ord ps start g l T max)
    (ht : List.Forall₂ (TokenFor g) toks ss) (hk : Numbers g ks ss) (hl : toks.length ≤ max)
    {st : Lalr.PState} (hs : Lalr.startState ks = .ok st) :
    ((∃ syms, Ts.parse max S T toks = .symbols syms) →
      ∃ n st', n < 50 ∧ Runs g l.action l.goto ks n st st' ∧ Lalr.step g l.action l.goto ks st' = .ok none) ∧
    (Ts.parse max S T toks = .exceeded → ∃ st', Runs g l.action l.goto ks 50 st st') := by
  obtain ⟨look, hT, hA⟩ := parse_agree (S := S) hE ht hk hl hs
  rw [← run_fuel_iff]
  constructor
  · rintro ⟨syms, hp⟩
    rw [hp] at hA
    rcases hA with ⟨h, _⟩ | ⟨st', _, _, _, _, _, _, h, _⟩ | ⟨_, _, _, h⟩ | ⟨_, h⟩ | ⟨_, _, _, h⟩
    · cases h
    · obtain ⟨n, h⟩ := run_ok_iff.mp h
      exact ⟨n, st', h⟩
    · cases h
    · cases h
    · cases h
  · intro hp
    rw [hp] at hA
    rcases hA with ⟨_, h⟩ | ⟨_, _, _, _, _, _, _, _, _, _, _, _, h⟩ | ⟨_, _, _, h⟩ | ⟨_, h⟩ | ⟨_, _, _, h⟩
    · exact h
    · cases h
    · cases h
    · cases h
    · cases h

/-- No tokens at all: both refuse. -/
theorem C37_empty (S : Ts.Sem V) : (∃ syms, Ts.parse max S T [] = .invalidToken none syms) ∧
    Lalr.parseIdx g l.action l.goto 50 [] = .error .emptyTokens := by
  refine ⟨⟨[], ?_⟩, rfl⟩
  simp [Ts.parse, Ts.tokenIndices, Ts.tokenIndicesImpl, Ts.reverse, Ts.reverseImpl, Ts.parseImpl]

/-! ## C38 -/

/-- C38, for grammars whose parameters are distinct in each body and not called `newStack`: when `Parse` accepts, the tokens
before the first end marker are a sentence, and the result is a single symbol of the
start kind whose value is the evaluation of its parse tree, the tree given by the
reductions of the Rust parser.
Missing: a name used twice in a body, and the name `newStack` (`C38_false`). -/
theorem C38_value_partial (hE : Emitted hash rx ord ps start g l T max)
    (ht : List.Forall₂ (TokenFor g) toks ss) (hk : Numbers g ks ss) (hl : toks.length ≤ max)
    {syms : List (Ts.Symb V)} (hp : Ts.parse max S T toks = .symbols syms) :
    ∃ v f n ws, syms = [.nonTerm start.name v] ∧ ss[n]? = some .eof ∧
      IsTree g.prods start.name f (ss.take n) ∧ Sentence (AstRule ps) start.name (ss.take n) ∧
      List.Forall₂ (fun (t : Ts.Tok) w => t.value = some (.val w)) (toks.take n) ws ∧ Eval S ps f ws [v] ∧
      n + f.post.length < 50 ∧ Lalr.parseIdx g l.action l.goto 50 ks = .ok f.post := by
  have hok := hE.gen.built.ok
  cases hs : Lalr.startState ks with
  | error e =>
    have : ks = [] := by cases ks <;> first | rfl | cases hs
    subst this
    have : ss = [] := List.eq_nil_of_length_eq_zero (by simpa using (congrArg List.length hk).symm)
    subst this
    cases ht
    obtain ⟨_, h⟩ := (C37_empty (max := max) (T := T) (g := g) (l := l) S).1
    rw [h] at hp; cases hp
  | ok st =>
    obtain ⟨look, hT, hA⟩ := parse_agree (S := S) hE ht hk hl hs
    rw [hp] at hA
    rcases hA with ⟨h, _⟩ | ⟨st', f, w, syms', prs, used, ws, he, hI, hS, ha, ⟨A, hA, hr⟩, h⟩ | ⟨_, _, _, h⟩ | ⟨_, h⟩ | ⟨_, _, _, h⟩
    · cases h
    · cases h
      rw [Grammar.start_prod hE.gen.ast hE.gen.first] at hA
      cases hA
      obtain ⟨r, hr'⟩ := hI.at_eof hok ha
      have hlk : ks.length = ss.length := by simpa using congrArg List.length hk
      have hlt : toks.length = ss.length := ht.length_eq
      have hwl : w.length = st'.i := hI.len
      have hlen : st'.i < ks.length := by rw [hr']; simp; omega
      have hys : f.yield = ss.take st'.i := by
        have h1 := congrArg (List.take st'.i) hk
        rw [hr', List.map_append, ← hwl, List.take_append_of_le_length (by simp), List.take_of_length_le (by simp),
          hI.yield, ← List.map_take] at h1
        rw [hwl] at h1
        exact (List.map_inj_right (fun _ _ => Option.some.inj)).mp h1
      have heof : ss[st'.i]? = some .eof := by
        have h1 := congrArg (fun l => l[st'.i]?) hk
        rw [hr'] at h1
        simp only [List.getElem?_map] at h1
        rw [← hwl, List.getElem?_append_right (by omega)] at h1
        simp only [Nat.sub_self, List.getElem?_cons_zero, Option.map_some, hok.tok0] at h1
        rw [hwl] at h1
        cases h2 : ss[st'.i]? with
        | none => rw [h2] at h1; cases h1
        | some x => rw [h2] at h1; simp at h1; rw [h1]
      have hused : used = toks.take st'.i := by
        apply List.ext_getElem?
        intro k
        by_cases hk' : k < st'.i
        · rw [hS.get k hk', Nat.min_eq_left (by omega), List.getElem?_take_of_lt hk']
        · rw [List.getElem?_eq_none (by rw [hS.len]; omega), List.getElem?_eq_none (by simp; omega)]
      have hroots := hr
      have heach := hS.each
      rw [hr] at heach
      cases heach with
      | @cons _ pr _ _ h1 h2 =>
        cases h2
        obtain ⟨v, y⟩ := pr
        simp only at h1
        cases h1 with
        | term h => exact False.elim h.1
        | nonTerm _ _ =>
          refine ⟨v, f, st'.i, ws, ?_, heof, ⟨hI.valid, hr, hys⟩, ?_, hused ▸ hS.texts, hS.eval, ?_, ?_⟩
          · rw [hS.syms]; rfl
          · rw [← Grammar.sentence_iff hok hE.gen.ast hE.gen.first (Grammar.start_ne hok hE.gen.ast hE.gen.first), ← hys]
            refine ⟨Forest.yield_term f hI.valid, ?_⟩
            rw [← hr]
            exact Forest.steps f hI.valid
          · obtain ⟨k, h1, h2, _⟩ := run_ok_iff.mp he
            have h3 := runs_count h2
            cases ks with
            | nil => cases hs
            | cons a ks =>
              cases hs
              simp only [hI.post] at h3 ⊢
              simp at h3
              omega
          · simp only [Lalr.parseIdx, hs, he, bind, Except.bind, pure, Except.pure, hI.post]
    · cases h
    · cases h
    · cases h

/-- The value in C38 is determined by the tree and the texts of the tokens. -/
theorem C38_unique {f : Forest} {ws : List Str} {vs vs' : List V} (h : Eval S ps f ws vs) (h' : Eval S ps f ws vs') :
    vs = vs' := Ts.eval_unique h h'

end

/-! ## Sample -/

/-- A check for `NamesOk`. -/
def namesOkB (ps : List Ast.Prod) : Bool :=
  ps.all fun p => p.bodies.all fun b =>
    (b.inputs.all fun s => match s with
      | .named none _ => false
      | .named _ (.named _ _) => false
      | _ => true) &&
    decide (names b.inputs).Nodup && decide ("newStack".toList ∉ names b.inputs)

/-- A check for `NoHiding`. -/
def noHidingB (ps : List Ast.Prod) : Bool :=
  ps.all fun p => p.bodies.all fun b =>
    (names b.inputs).all fun n => decide (Sym.nonTerm n ∉ b.inputs.map Ast.InSym.lower)

theorem noHidingB_sound {ps : List Ast.Prod} (h : noHidingB ps = true) : NoHiding ps := by
  simp only [noHidingB, List.all_eq_true, decide_eq_true_eq] at h
  exact fun p hp b hb n hn k hk e => h p hp b hb n hn (e ▸ hk)

theorem namesOkB_sound {ps : List Ast.Prod} (h : namesOkB ps = true) : NamesOk ps := by
  simp only [namesOkB, List.all_eq_true, Bool.and_eq_true, decide_eq_true_eq] at h
  refine ⟨fun p hp b hb n ty hm => ?_, fun p hp b hb => (h p hp b hb).1.2, fun p hp b hb => (h p hp b hb).2⟩
  have := (h p hp b hb).1.1 _ hm
  cases n with
  | none => simp at this
  | some n =>
    refine ⟨by simp, fun m t e => ?_⟩
    subst e
    simp at this

/-- Values are texts: mapping code applied to the values of its parameters. -/
def textSem : Ts.Sem Str where
  text w := w
  code c env := some (c ++ '(' :: env.flatMap (fun p => p.1 ++ '=' :: p.2 ++ [';']) ++ [')'])
  has _ _ := true
  sub _ _ := true
  spread _ := none

/-- The generated tables. -/
def wordT : ParseGen.Tables := (ParseGen.generate wordAst wordL).toOption.getD ⟨[], [], [], [], [], []⟩

theorem word_kinds : DistinctKinds (lower wordAst) := by
  refine ⟨word_distinct, ?_⟩
  rw [word_tokens]
  intro s hs
  simp only [List.mem_cons, List.not_mem_nil, or_false] at hs
  rcases hs with rfl | rfl | rfl | rfl | rfl | rfl <;> intro h <;> first | exact False.elim h | decide

theorem word_emitted : Emitted id wordRx (fun _ l => l) wordAst (startOf wordAst) (lower wordAst) wordL wordT 5000 :=
  ⟨word_generated, ok_of_isSome (by decide +kernel), namesOkB_sound (by decide +kernel), word_kinds, by decide +kernel⟩

theorem word_noHiding : NoHiding wordAst := noHidingB_sound (by decide +kernel)

theorem word_typed : WellTyped textSem wordAst := fun _ _ _ _ _ _ => ⟨_, rfl, rfl⟩

/-- The tokens of `x ab`. -/
def wordToks : List Ts.Tok :=
  [⟨"x".toList, some (.val "x".toList)⟩, ⟨"[a-w]+".toList, some (.val "ab".toList)⟩, ⟨"EOF".toList, none⟩]

theorem word_tokensFor : List.Forall₂ (TokenFor (lower wordAst)) wordToks
    [.strLit "x".toList, .regex "[a-w]+".toList, .eof] := by
  refine .cons (.inr ⟨?_, _, trivial, rfl, rfl, ?_⟩) (.cons (.inr ⟨?_, _, trivial, rfl, rfl, ?_⟩) (.cons (.inl ⟨rfl, rfl⟩) .nil))
  · rw [word_tokens]; simp
  · intro l h; cases h; rfl
  · rw [word_tokens]; simp
  · intro l h; cases h

-- C37, C38: the hypotheses and a parse; the value of `x ab` is `w(w=r(r=ab;);)`.
example : Emitted id wordRx (fun _ l => l) wordAst (startOf wordAst) (lower wordAst) wordL wordT 5000 ∧
    WellTyped textSem wordAst ∧ NoHiding wordAst ∧
    List.Forall₂ (TokenFor (lower wordAst)) wordToks [.strLit "x".toList, .regex "[a-w]+".toList, .eof] ∧
    Numbers (lower wordAst) [1, 5, 0] [.strLit "x".toList, .regex "[a-w]+".toList, .eof] ∧
    Ts.parse 5000 textSem wordT wordToks = .symbols [.nonTerm "S".toList "w(w=r(r=ab;);)".toList] :=
  ⟨word_emitted, word_typed, word_noHiding, word_tokensFor, by rw [Numbers, word_tokens]; rfl, by decide +kernel⟩

/-- `S → "x" S | "y"`. -/
def rowAst : List Ast.Prod :=
  [⟨"S".toList, [⟨[.strLit "x".toList, .named (some "s".toList) (.nonTerm "S".toList)], "s".toList⟩,
      ⟨[.strLit "y".toList], "0".toList⟩], true, "T".toList⟩]

/-- The generated parser. -/
def rowL : Lalr := (Lalr.new id (fun _ => none) (fun _ l => l) (lower rowAst)).toOption.getD
  ⟨⟨[], [], [], []⟩, ⟨⟨[], [], [], []⟩, [], []⟩, [], [], []⟩

/-- The generated tables. -/
def rowT : ParseGen.Tables := (ParseGen.generate rowAst rowL).toOption.getD ⟨[], [], [], [], [], []⟩

/-- Tokens of `n` times `x`, then `y`. -/
def rowToks (n : Nat) : List Ts.Tok :=
  List.replicate n ⟨"x".toList, some (.val "x".toList)⟩ ++ [⟨"y".toList, some (.val "y".toList)⟩, ⟨"EOF".toList, none⟩]

-- C37: `x` 23 times and `y` take 48 moves; with one `x` more, 50.
example : Ts.parse 5000 textSem rowT (rowToks 24) = .exceeded ∧
    (Lalr.parseIdx (lower rowAst) rowL.action rowL.goto 51 (List.replicate 24 1 ++ [2, 0])).toOption.isSome = true ∧
    (match Ts.parse 5000 textSem rowT (rowToks 23) with | .symbols _ => true | _ => false) = true := by decide +kernel

/-! ## Witnesses -/

/-- `S → <newStack: "x">`. -/
def hideAst : List Ast.Prod :=
  [⟨"S".toList, [⟨[.named (some "newStack".toList) (.strLit "x".toList)], "newStack".toList⟩], true, "string".toList⟩]

/-- C37 is false in general: with a parameter called `newStack` the Rust parser
accepts `x` and `Parse` ends with the error of the action. -/
theorem C37_false : ∃ ps start g l T, Generated id (fun _ => none) (fun _ l => l) ps start g l ∧
    ParseGen.generate ps l = .ok T ∧ DistinctKinds g ∧ WellTyped textSem ps ∧
    List.Forall₂ (TokenFor g) [⟨"x".toList, some (.val "x".toList)⟩, ⟨"EOF".toList, none⟩] [.strLit "x".toList, .eof] ∧
    Numbers g [1, 0] [.strLit "x".toList, .eof] ∧ Lalr.parseIdx g l.action l.goto 50 [1, 0] = .ok [1] ∧
    Ts.parse 5000 textSem T [⟨"x".toList, some (.val "x".toList)⟩, ⟨"EOF".toList, none⟩] =
      .emitError .other [.token (some ⟨"x".toList, some (.val "x".toList)⟩)] := by
  have ht : (lower hideAst).tokens = [.eof, .strLit "x".toList, .nonTerm "S".toList] := by decide +kernel
  refine ⟨hideAst, startOf hideAst, lower hideAst,
    (Lalr.new id (fun _ => none) (fun _ l => l) (lower hideAst)).toOption.getD
      ⟨⟨[], [], [], []⟩, ⟨⟨[], [], [], []⟩, [], []⟩, [], [], []⟩,
    (ParseGen.generate hideAst ((Lalr.new id (fun _ => none) (fun _ l => l) (lower hideAst)).toOption.getD
      ⟨⟨[], [], [], []⟩, ⟨⟨[], [], [], []⟩, [], []⟩, [], [], []⟩)).toOption.getD ⟨[], [], [], [], [], []⟩,
    ⟨expressibleB_sound (by decide +kernel), startOf_eq (by decide +kernel), ok_of_isSome (by decide +kernel),
      ok_of_isSome (by decide +kernel)⟩,
    ok_of_isSome (by decide +kernel), ⟨?_, ?_⟩, fun _ _ _ _ _ _ => ⟨_, rfl, rfl⟩, ?_, by rw [Numbers, ht]; rfl,
    ok_of (by decide +kernel), by decide +kernel⟩
  · unfold DistinctSpellings
    rw [ht]
    intro s hs t ht h1 h2 h3
    simp only [List.mem_cons, List.not_mem_nil, or_false] at hs ht
    rcases hs with rfl | rfl | rfl <;> rcases ht with rfl | rfl | rfl <;>
      first | rfl | exact False.elim h1 | exact False.elim h2
  · rw [ht]
    intro s hs
    simp only [List.mem_cons, List.not_mem_nil, or_false] at hs
    rcases hs with rfl | rfl | rfl <;> intro h <;> first | exact False.elim h | decide
  · refine .cons (.inr ⟨?_, _, trivial, rfl, rfl, ?_⟩) (.cons (.inl ⟨rfl, rfl⟩) .nil)
    · rw [ht]; simp
    · intro l h; cases h; rfl

/-- The parser generated for a grammar without regexes, and its tables. -/
def genL (ps : List Ast.Prod) : Lalr := (Lalr.new id (fun _ => none) (fun _ l => l) (lower ps)).toOption.getD
  ⟨⟨[], [], [], []⟩, ⟨⟨[], [], [], []⟩, [], []⟩, [], [], []⟩

def genT (ps : List Ast.Prod) : ParseGen.Tables :=
  (ParseGen.generate ps (genL ps)).toOption.getD ⟨[], [], [], [], [], []⟩

/-- `S → <a: <b: "x">>`, which is no text of a grammar file: `generate` panics (`C37_generates`). -/
example : ParseGen.generate
      [⟨"S".toList, [⟨[.named (some "a".toList) (.named (some "b".toList) (.strLit "x".toList))], "a".toList⟩], true, "string".toList⟩]
      (genL hideAst) = .error .unreachable ∧
    (∃ T, ParseGen.generate hideAst (genL hideAst) = .ok T) :=
  ⟨error_of (by decide +kernel), genT hideAst, ok_of_isSome (by decide +kernel)⟩

/-- The token for a literal. -/
def litTok (s : String) : Ts.Tok := ⟨s.toList, some (.val s.toList)⟩

theorem litTok_for {g : Grammar} {s : String} (h : Sym.strLit s.toList ∈ g.tokens) :
    TokenFor g (litTok s) (.strLit s.toList) :=
  .inr ⟨h, _, trivial, rfl, rfl, by intro l h; cases h; rfl⟩

theorem literals_distinct {g : Grammar} (h : ∀ s ∈ g.tokens, IsTerm s → ∃ l, s = .strLit l ∧ l ≠ "EOF".toList) :
    DistinctKinds g := by
  refine ⟨fun s hs t ht h1 h2 h3 => ?_, fun s hs h1 => ?_⟩
  · obtain ⟨l, rfl, _⟩ := h s hs h1
    obtain ⟨l', rfl, _⟩ := h t ht h2
    simpa [spelling] using h3
  · obtain ⟨l, rfl, hl⟩ := h s hs h1
    exact hl

/-- `S → <A: B> <x: A>`, `A → "a"`, `B → "b"`. -/
def hiddenAst : List Ast.Prod :=
  [⟨"S".toList, [⟨[.named (some "A".toList) (.nonTerm "B".toList), .named (some "x".toList) (.nonTerm "A".toList)],
      "s".toList⟩], true, "string".toList⟩,
   ⟨"A".toList, [⟨[.strLit "a".toList], "a".toList⟩], false, "string".toList⟩,
   ⟨"B".toList, [⟨[.strLit "b".toList], "b".toList⟩], false, "string".toList⟩]

/-- Values are texts, and a value extends only itself. -/
def eqSem : Ts.Sem Str := { textSem with sub := fun u v => decide (u = v) }

/-- C37 is false when a parameter has the name of a nonterminal: in `<A: B> <x: A>` the
second `A` is taken for the parameter; the Rust parser accepts `b a` and `Parse` ends
with the error of the action. -/
theorem C37_false_hidden :
    Generated id (fun _ => none) (fun _ l => l) hiddenAst (startOf hiddenAst) (lower hiddenAst) (genL hiddenAst) ∧
    ParseGen.generate hiddenAst (genL hiddenAst) = .ok (genT hiddenAst) ∧ NamesOk hiddenAst ∧
    DistinctKinds (lower hiddenAst) ∧ WellTyped eqSem hiddenAst ∧
    List.Forall₂ (TokenFor (lower hiddenAst)) [litTok "b", litTok "a", ⟨"EOF".toList, none⟩]
      [.strLit "b".toList, .strLit "a".toList, .eof] ∧
    Numbers (lower hiddenAst) [2, 1, 0] [.strLit "b".toList, .strLit "a".toList, .eof] ∧
    Lalr.parseIdx (lower hiddenAst) (genL hiddenAst).action (genL hiddenAst).goto 50 [2, 1, 0] = .ok [3, 2, 1] ∧
    Ts.parse 5000 eqSem (genT hiddenAst) [litTok "b", litTok "a", ⟨"EOF".toList, none⟩] =
      .emitError (.error (.invalidSymbol 1 1)) [.nonTerm "A".toList "a()".toList, .nonTerm "B".toList "b()".toList] := by
  have ht : (lower hiddenAst).tokens = [.eof, .strLit "a".toList, .strLit "b".toList, .nonTerm "A".toList,
    .nonTerm "B".toList, .nonTerm "S".toList] := by decide +kernel
  refine ⟨⟨expressibleB_sound (by decide +kernel), startOf_eq (by decide +kernel), ok_of_isSome (by decide +kernel),
      ok_of_isSome (by decide +kernel)⟩, ok_of_isSome (by decide +kernel),
    namesOkB_sound (by decide +kernel), literals_distinct ?_, fun _ _ _ _ _ _ => ⟨_, rfl, rfl⟩,
    .cons (litTok_for (by rw [ht]; simp)) (.cons (litTok_for (by rw [ht]; simp)) (.cons (.inl ⟨rfl, rfl⟩) .nil)),
    by rw [Numbers, ht]; rfl, ok_of (by decide +kernel), by decide +kernel⟩
  rw [ht]
  intro s hs h
  simp only [List.mem_cons, List.not_mem_nil, or_false] at hs
  rcases hs with rfl | rfl | rfl | rfl | rfl | rfl <;> first | exact False.elim h | exact ⟨_, rfl, by decide⟩

/-- `S → "EOF" "x"`. -/
def eofAst : List Ast.Prod :=
  [⟨"S".toList, [⟨[.strLit "EOF".toList, .strLit "x".toList], "s".toList⟩], true, "string".toList⟩]

/-- C37 is false when a terminal is spelled like the end marker: its token is taken for the end of the
text; the Rust parser accepts `EOF x` and `Parse` ends with an invalid token.  (In a file the type of the
token numbers has the member `EOF` twice.) -/
theorem C37_false_eof :
    Generated id (fun _ => none) (fun _ l => l) eofAst (startOf eofAst) (lower eofAst) (genL eofAst) ∧
    ParseGen.generate eofAst (genL eofAst) = .ok (genT eofAst) ∧ NamesOk eofAst ∧ DistinctSpellings (lower eofAst) ∧
    NoHiding eofAst ∧ WellTyped eqSem eofAst ∧
    List.Forall₂ (TokenFor (lower eofAst)) [litTok "EOF", litTok "x", ⟨"EOF".toList, none⟩]
      [.strLit "EOF".toList, .strLit "x".toList, .eof] ∧
    Numbers (lower eofAst) [1, 2, 0] [.strLit "EOF".toList, .strLit "x".toList, .eof] ∧
    Lalr.parseIdx (lower eofAst) (genL eofAst).action (genL eofAst).goto 50 [1, 2, 0] = .ok [1] ∧
    ∃ a syms, Ts.parse 5000 eqSem (genT eofAst) [litTok "EOF", litTok "x", ⟨"EOF".toList, none⟩] = .invalidToken a syms := by
  have ht : (lower eofAst).tokens = [.eof, .strLit "EOF".toList, .strLit "x".toList, .nonTerm "S".toList] := by decide +kernel
  refine ⟨⟨expressibleB_sound (by decide +kernel), startOf_eq (by decide +kernel), ok_of_isSome (by decide +kernel),
      ok_of_isSome (by decide +kernel)⟩, ok_of_isSome (by decide +kernel),
    namesOkB_sound (by decide +kernel), ?_, ?_, fun _ _ _ _ _ _ => ⟨_, rfl, rfl⟩,
    .cons (litTok_for (by rw [ht]; simp)) (.cons (litTok_for (by rw [ht]; simp)) (.cons (.inl ⟨rfl, rfl⟩) .nil)),
    by rw [Numbers, ht]; rfl, ok_of (by decide +kernel), some 0, [], by decide +kernel⟩
  · unfold DistinctSpellings
    rw [ht]
    intro s hs t ht h1 h2 h3
    simp only [List.mem_cons, List.not_mem_nil, or_false] at hs ht
    rcases hs with rfl | rfl | rfl | rfl <;> rcases ht with rfl | rfl | rfl | rfl <;>
      first | rfl | exact False.elim h1 | exact False.elim h2 | (revert h3; decide)
  · intro p hp b hb n hn
    have h : ∀ p ∈ eofAst, ∀ b ∈ p.bodies, names b.inputs = [] := by decide +kernel
    rw [h p hp b hb] at hn
    cases hn

/-- `S → <a: A> <b: B>`, `A → "a"`, `B → <newStack: E>`, `E → "b"`. -/
def spreadAst : List Ast.Prod :=
  [⟨"S".toList, [⟨[.named (some "a".toList) (.nonTerm "A".toList), .named (some "b".toList) (.nonTerm "B".toList)],
      "s".toList⟩], true, "string".toList⟩,
   ⟨"A".toList, [⟨[.strLit "a".toList], "a".toList⟩], false, "string".toList⟩,
   ⟨"B".toList, [⟨[.named (some "newStack".toList) (.nonTerm "E".toList)], "b".toList⟩], false, "string".toList⟩,
   ⟨"E".toList, [⟨[.strLit "b".toList], "e".toList⟩], false, "string".toList⟩]

/-- Every value is a tuple of one symbol `A` with the value `fake`. -/
def fakeSem : Ts.Sem Str := { textSem with spread := fun _ => some [.nonTerm "A".toList "fake".toList] }

/-- C38 is false with a parameter called `newStack`: its value takes the place of the
stack, and the parameter `a` of `S` is bound to what is not the value of its child. -/
theorem C38_false :
    Generated id (fun _ => none) (fun _ l => l) spreadAst (startOf spreadAst) (lower spreadAst) (genL spreadAst) ∧
    ParseGen.generate spreadAst (genL spreadAst) = .ok (genT spreadAst) ∧ DistinctKinds (lower spreadAst) ∧
    WellTyped fakeSem spreadAst ∧ NoHiding spreadAst ∧
    List.Forall₂ (TokenFor (lower spreadAst)) [litTok "a", litTok "b", ⟨"EOF".toList, none⟩]
      [.strLit "a".toList, .strLit "b".toList, .eof] ∧
    ∃ f, Lalr.parseIdx (lower spreadAst) (genL spreadAst).action (genL spreadAst).goto 50 [1, 2, 0] = .ok f.post ∧
      Eval fakeSem spreadAst f ["a".toList, "b".toList] ["s(a=a();b=b(newStack=e(););)".toList] ∧
      Ts.parse 5000 fakeSem (genT spreadAst) [litTok "a", litTok "b", ⟨"EOF".toList, none⟩] =
        .symbols [.nonTerm "S".toList "s(a=fake;b=b(newStack=e(););)".toList] := by
  have ht : (lower spreadAst).tokens = [.eof, .strLit "a".toList, .strLit "b".toList, .nonTerm "A".toList,
    .nonTerm "B".toList, .nonTerm "E".toList, .nonTerm "S".toList] := by decide +kernel
  refine ⟨⟨expressibleB_sound (by decide +kernel), startOf_eq (by decide +kernel), ok_of_isSome (by decide +kernel),
      ok_of_isSome (by decide +kernel)⟩, ok_of_isSome (by decide +kernel),
    literals_distinct ?_, fun _ _ _ _ _ _ => ⟨_, rfl, rfl⟩, noHidingB_sound (by decide +kernel),
    .cons (litTok_for (by rw [ht]; simp)) (.cons (litTok_for (by rw [ht]; simp)) (.cons (.inl ⟨rfl, rfl⟩) .nil)),
    .node 1 (.node 2 (.leaf (.strLit "a".toList) .nil) (.node 3 (.node 4 (.leaf (.strLit "b".toList) .nil) .nil) .nil)) .nil,
    ok_of (by decide +kernel), ?_, by decide +kernel⟩
  · rw [ht]
    intro s hs h
    simp only [List.mem_cons, List.not_mem_nil, or_false] at hs
    rcases hs with rfl | rfl | rfl | rfl | rfl | rfl | rfl <;> first | exact False.elim h | exact ⟨_, rfl, by decide⟩
  · have n1 : bodyOf spreadAst 1 = some ⟨[.named (some "a".toList) (.nonTerm "A".toList),
      .named (some "b".toList) (.nonTerm "B".toList)], "s".toList⟩ := rfl
    have n2 : bodyOf spreadAst 2 = some ⟨[.strLit "a".toList], "a".toList⟩ := rfl
    have n3 : bodyOf spreadAst 3 = some ⟨[.named (some "newStack".toList) (.nonTerm "E".toList)], "b".toList⟩ := rfl
    have n4 : bodyOf spreadAst 4 = some ⟨[.strLit "b".toList], "e".toList⟩ := rfl
    exact Eval.node (S := fakeSem) n1 (Eval.node n2 (.leaf (w := "a".toList) .nil) rfl
      (Eval.node n3 (Eval.node n4 (.leaf (w := "b".toList) .nil) rfl .nil) rfl .nil)) rfl .nil

end Verif.Props
