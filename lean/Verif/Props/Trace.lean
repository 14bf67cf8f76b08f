import Verif.Proofs.TraceOk
import Verif.Props.Expected
import Verif.Props.Fifty
import Verif.Props.Show

/-! # What the parser prints (C93) -/

namespace Verif.Props
open Verif Spec

section
variable {H : Type} [DecidableEq H] {hash : List Item → H} {rx : Str → Option Hir} {ord : Nfa.Order} {ps : List Ast.Prod}
  {start : Ast.Prod} {g : Grammar} {l : Lalr}

theorem inside (hG : Generated hash rx ord ps start g l) {toks : List Nat} {m : Nat} (hm : toks[m]? = some 0) {st0 : Lalr.PState}
    (hs : Lalr.startState toks = .ok st0) {n : Nat} {st : Lalr.PState} (hr : Runs g l.action l.goto toks n st0 st) : st.i < toks.length := by
  have hok := hG.built.ok
  obtain ⟨look, hT⟩ := hG.built.sound
  obtain ⟨f, w, hI⟩ := hr.inv hok hT (Lalr.Inv.start (look := look) (g := g) (lalr := l.states) hs)
  have := (hI.le hok hm).1
  have := (List.getElem?_eq_some_iff.mp hm).1
  omega

/-- The beginning of a run and what is printed by it. -/
theorem trace_runs (hG : Generated hash rx ord ps start g l) {toks : List (Token × Nat)} {m : Nat} (hm : (toks.map Prod.snd)[m]? = some 0)
    {st0 : Lalr.PState} (hs : Lalr.startState (toks.map Prod.snd) = .ok st0) {k : Nat} {st : Lalr.PState}
    (hr : Runs g l.action l.goto (toks.map Prod.snd) k st0 st) :
    ∃ tok ls, (toks[st.i]?).map Prod.fst = some tok ∧
      (∀ fuel, Trace.parse l (fuel + k) toks = (ls ++ (Trace.loop l toks fuel k tok st).1, (Trace.loop l toks fuel k tok st).2)) ∧
      (following "  shifting ".toList ls).length = st.i ∧ (following "STACK: ".toList ls).length = k ∧
      (∀ j st1, j < k → Runs g l.action l.goto (toks.map Prod.snd) j st0 st1 →
        (following "STACK: ".toList ls)[j]? = some (Trace.stack st1.stack)) ∧
      following "LOOP COUNT: ".toList ls = [] ∧
      List.Forall₂ (fun p s => ∃ prod, g.prods[p]? = some prod ∧ s = Show.production prod) st.out (following "  reducing by ".toList ls) := by
  obtain rfl : l.grammar = g := (new_ok hG.new).1
  match toks, hs with
  | (t, a) :: ts, hs =>
    cases hs
    obtain ⟨tok, ls, h1, h2, h3, h4, h5, h6, ds, h7, h8⟩ := Trace.loop_runs hr
      (fun j st1 h => by simpa using inside hG hm (st0 := ⟨[0], 0, a, []⟩) rfl h) t rfl
    refine ⟨tok, ls, h1, fun fuel => ?_, by simpa using h3, h4, h5, h6, ?_⟩
    · have := h2 fuel 0
      rw [Nat.zero_add] at this
      exact this
    · rw [h7]; exact h8

/-- **C93, what is accepted.**  When the parser accepts, the rules printed as reduced, read backwards, are a rightmost derivation of the
tokens in the source grammar; a shift is printed for every token, a stack for every iteration, and the count at the end is
one more than the number of tokens and rules. -/
theorem C93_accepted (hG : Generated hash rx ord ps start g l) {toks : List (Token × Nat)} {w rest out : List Nat} (h0 : 0 ∉ w)
    (ht : toks.map Prod.snd = w ++ 0 :: rest) {fuel : Nat} (hp : Lalr.parseIdx g l.action l.goto fuel (toks.map Prod.snd) = .ok out) :
    ∃ ws rs, Numbers g w ws ∧ Rightmost (AstRule ps) [.nonTerm start.name] rs ws ∧
      List.Forall₂ RuleText rs (following "  reducing by ".toList (Trace.parse l fuel toks).1).reverse ∧
      (following "  shifting ".toList (Trace.parse l fuel toks).1).length = w.length ∧
      (following "STACK: ".toList (Trace.parse l fuel toks).1).length = w.length + rs.length + 1 ∧
      following "LOOP COUNT: ".toList (Trace.parse l fuel toks).1 = [(w.length + rs.length + 1).repr.toList] ∧
      (Trace.parse l fuel toks).2 = none := by
  have hok := hG.built.ok
  obtain ⟨w', rest', ws, f, h1, h2, _, ⟨hv, hroots, hy⟩, hpost⟩ := C27_sound hG.built hp
  have hz : 0 ∉ w' := by
    intro hz
    have h3 : g.tokens[0]? ∈ ws.map some := h2 ▸ List.mem_map.mpr ⟨0, hz, rfl⟩
    obtain ⟨s, h4, h5⟩ := List.mem_map.mp h3
    rw [hok.tok0] at h5
    cases h5
    exact Forest.yield_term f hv _ (hy ▸ h4)
  obtain rfl := split_unique (ht.symm.trans h1) h0 hz
  obtain ⟨st0, st, hs, hr, hn, hk, hi, ho⟩ := accepted_moves hG h0 (ht ▸ hp)
  rw [← ht] at hs hr hn
  have hm : (toks.map Prod.snd)[w.length]? = some 0 := by rw [ht]; simp
  obtain ⟨tok, ls, _, g2, g3, g4, _, g6, g7⟩ := trace_runs hG hm hs hr
  obtain rfl : l.grammar = g := (new_ok hG.new).1
  obtain ⟨d, rfl⟩ : ∃ d, fuel = d + 1 + (w.length + out.length) := ⟨fuel - (w.length + out.length) - 1, by omega⟩
  obtain ⟨a1, a2, a3, a4⟩ := Trace.printed_accept (tok := tok) hn
  have hl : Trace.loop l toks (d + 1) (w.length + out.length) tok st =
      (Trace.printed l tok st ++ ["LOOP COUNT: ".toList ++ LexGen.digits (w.length + out.length + 1)], none) := by
    rw [Trace.loop, hn]
  have hd := Forest.rightmost f [] [] hv (by simp)
  simp only [List.nil_append, List.append_nil, hroots, hy, hpost] at hd
  have hne := Grammar.start_ne hok hG.ast hG.first
  have c1 : following "STACK: ".toList ["LOOP COUNT: ".toList ++ LexGen.digits (w.length + out.length + 1)] = [] := rfl
  have c2 : following "  shifting ".toList ["LOOP COUNT: ".toList ++ LexGen.digits (w.length + out.length + 1)] = [] := rfl
  have c3 : following "  reducing by ".toList ["LOOP COUNT: ".toList ++ LexGen.digits (w.length + out.length + 1)] = [] := rfl
  have c4 : following "LOOP COUNT: ".toList ["LOOP COUNT: ".toList ++ LexGen.digits (w.length + out.length + 1)] =
    [LexGen.digits (w.length + out.length + 1)] := rfl
  rw [g2, hl]
  refine ⟨ws, out.reverse.map (ruleOf l.grammar.prods), h2, hd.source hok hG.ast hG.first (by simpa using hne.symm), ?_, ?_, ?_, ?_, rfl⟩
  · simp only [following_append, a4, c3, List.append_nil]
    rw [← ho, List.map_reverse]
    refine List.rel_reverse ?_
    rw [List.forall₂_map_left_iff]
    refine g7.imp ?_
    rintro p s ⟨prod, hprod, rfl⟩
    obtain ⟨v, hv1, hv2⟩ := C79_production prod
    exact ⟨v, by simpa [ruleOf, hprod] using hv1, by rw [hv2]; simp [ruleOf, hprod]⟩
  · simp only [following_append, a3, c2, List.append_nil]
    omega
  · simp only [following_append, a1, c1, List.append_nil, List.length_append, List.length_map, List.length_reverse, List.length_singleton]
    omega
  · simp only [following_append, a2, g6, c4, List.nil_append, List.length_map, List.length_reverse]
    rw [Show.digits_eq]

/-- **C93, the stacks.**  The `n`-th stack printed, counted from 0, is the stack of the states after `n` iterations, from the bottom. -/
theorem C93_stacks (hG : Generated hash rx ord ps start g l) {toks : List (Token × Nat)} {m : Nat} (hm : (toks.map Prod.snd)[m]? = some 0)
    {st0 st : Lalr.PState} (hs : Lalr.startState (toks.map Prod.snd) = .ok st0) {n fuel : Nat}
    (hr : Runs g l.action l.goto (toks.map Prod.snd) n st0 st) (hn : n < fuel) :
    ∃ s, (following "STACK: ".toList (Trace.parse l fuel toks).1)[n]? = some s ∧ Listed st.stack.reverse s := by
  obtain ⟨tok, ls, _, g2, _, g4, _, _, _⟩ := trace_runs hG hm hs hr
  obtain ⟨d, rfl⟩ : ∃ d, fuel = d + 1 + n := ⟨fuel - n - 1, by omega⟩
  obtain ⟨r, hr⟩ := Trace.loop_head (l := l) (toks := toks) (tok := tok) (fuel := d) (n := n) (C31_stack hG.built hs hr)
  refine ⟨_, ?_, Trace.stack_listed _⟩
  rw [g2]
  simp only [following_append, hr]
  rw [List.getElem?_append_right (by omega), g4, Nat.sub_self]; rfl

/-- **C93, line by line.**  What the iteration after the first `n` prints: the two lines `Heads`, then what it does; for a reduction
the rule and the stack that results; after acceptance the number of iterations.  An iteration that panics prints nothing else, but for the
rule if there is no state to go to. -/
theorem C93_lines (hG : Generated hash rx ord ps start g l) {toks : List (Token × Nat)} {m : Nat} (hm : (toks.map Prod.snd)[m]? = some 0)
    {st0 st : Lalr.PState} (hs : Lalr.startState (toks.map Prod.snd) = .ok st0) {n fuel : Nat}
    (hr : Runs g l.action l.goto (toks.map Prod.snd) n st0 st) (hn : n < fuel) {r : Res (Option Lalr.PState)}
    (hst : Lalr.step g l.action l.goto (toks.map Prod.snd) st = r) :
    ∃ before hd after t, toks[st.i]? = some (t, st.a) ∧ Heads st.stack.reverse st.a (Trace.token t) st.i hd ∧
      (Trace.parse l fuel toks).1 = before ++ hd ++ after ∧ (following "STACK: ".toList before).length = n ∧
      (∀ st', r = .ok (some st') →
        (∃ j more, st'.stack = j :: st.stack ∧ after = ("  shifting ".toList ++ j.repr.toList) :: more) ∨
        ∃ p prod j s more, g.prods[p]? = some prod ∧ st'.out = st.out ++ [p] ∧
          st'.stack = j :: st.stack.drop prod.inputs.length ∧ Listed st'.stack.reverse s ∧
          after = ("  reducing by ".toList ++ Show.production prod) ::
            ("  pushing (".toList ++ j.repr.toList ++ ") => STACK: ".toList ++ s) :: more) ∧
      (r = .ok none → after = ["Accepting!".toList, "LOOP COUNT: ".toList ++ (n + 1).repr.toList]) ∧
      (r = .error .invalidToken → after = []) ∧
      (r = .error .gotoEmpty → ∃ top tl p prod, st.stack = top :: tl ∧ l.action.tryIndex top st.a = some (.reduce p) ∧
        g.prods[p]? = some prod ∧ after = ["  reducing by ".toList ++ Show.production prod]) := by
  obtain ⟨tok, ls, g1, g2, _, g4, _, _, _⟩ := trace_runs hG hm hs hr
  obtain ⟨d, rfl⟩ : ∃ d, fuel = d + 1 + n := ⟨fuel - n - 1, by omega⟩
  have hne := C31_stack hG.built hs hr
  obtain rfl : l.grammar = g := (new_ok hG.new).1
  have hget : toks[st.i]? = some (tok, st.a) := by
    have hi := inside hG hm hs hr
    rw [List.length_map] at hi
    obtain ⟨look, hT⟩ := hG.built.sound
    obtain ⟨f, w, hI⟩ := hr.inv hG.built.ok hT (Lalr.Inv.start (look := look) (lalr := l.states) hs)
    have hcur := hI.cur
    rw [List.length_map, Nat.min_eq_left (by omega), List.getElem?_map] at hcur
    rw [List.getElem?_eq_getElem hi] at g1 hcur ⊢
    simp only [Option.map_some, Option.some.injEq] at g1 hcur
    rw [← g1, ← hcur]
  have hre : r ≠ .error .stackEmpty := by
    intro he
    subst he
    have := hr.error (Lalr.step_error hst) (fuel := n + 1) (by omega)
    have hp : Lalr.parseIdx l.grammar l.action l.goto (n + 1) (toks.map Prod.snd) = .error .stackEmpty := by
      unfold Lalr.parseIdx
      simp [hs, this, bind, Except.bind]
    rcases C31_failures hG.built (by rintro h; simp [h] at hm) hp with h | h | ⟨h, _⟩ <;> cases h
  obtain ⟨hd, h1, h2, h3, h4, h5⟩ := Trace.printed_lines (tok := tok) hst hre
  rw [g2]
  have key : ∃ more, (Trace.loop l toks (d + 1) n tok st).1 = Trace.printed l tok st ++ more ∧
      (r = .ok none → more = ["LOOP COUNT: ".toList ++ LexGen.digits (n + 1)]) ∧ (∀ e, r = .error e → more = []) := by
    rw [Trace.loop, hst]
    match r with
    | .ok none => exact ⟨_, rfl, fun _ => rfl, by simp⟩
    | .ok (some st') => exact ⟨_, rfl, by simp, by simp⟩
    | .error e => cases e <;> exact ⟨[], by simp, by simp, fun _ _ => rfl⟩
  obtain ⟨more, k1, k2, k3⟩ := key
  have fin : ∀ x, Trace.printed l tok st = hd ++ x →
      ls ++ (Trace.loop l toks (d + 1) n tok st).1 = ls ++ hd ++ (x ++ more) := by
    intro x hx
    rw [k1, hx, List.append_assoc, List.append_assoc]
  match r with
  | .ok (some st') =>
    rcases h2 st' rfl with ⟨j, e1, e2⟩ | ⟨p, prod, j, s, e1, e2, e3, e4, e5⟩
    · refine ⟨ls, hd, _, tok, hget, h1, fin _ e2, g4, ?_, by simp, by simp, by simp⟩
      intro st'' he; cases he
      exact .inl ⟨j, more, e1, rfl⟩
    · refine ⟨ls, hd, _, tok, hget, h1, fin _ e5, g4, ?_, by simp, by simp, by simp⟩
      intro st'' he; cases he
      exact .inr ⟨p, prod, j, s, more, e1, e2, e3, e4, rfl⟩
  | .ok none =>
    refine ⟨ls, hd, _, tok, hget, h1, fin _ (h3 rfl), g4, by simp, ?_, by simp, by simp⟩
    intro _
    rw [k2 rfl, Show.digits_eq]; rfl
  | .error e =>
    by_cases he : e = .invalidToken
    · subst he
      refine ⟨ls, hd, _, tok, hget, h1, fin [] (by rw [h4 rfl, List.append_nil]), g4, by simp, by simp, ?_, by simp⟩
      intro _
      rw [k3 _ rfl]; rfl
    · by_cases he' : e = .gotoEmpty
      · subst he'
        obtain ⟨top, tl, p, prod, e1, e2, e3, e4⟩ := h5 rfl
        refine ⟨ls, hd, _, tok, hget, h1, fin _ e4, g4, by simp, by simp, by simp, ?_⟩
        intro _
        exact ⟨top, tl, p, prod, e1, e2, e3, by rw [k3 _ rfl, List.append_nil]⟩
      · exfalso
        have := hr.error (Lalr.step_error hst) (fuel := n + 1) (by omega)
        have hp : Lalr.parseIdx l.grammar l.action l.goto (n + 1) (toks.map Prod.snd) = .error e := by
          unfold Lalr.parseIdx
          simp [hs, this, bind, Except.bind]
        rcases C31_failures hG.built (by rintro h; simp [h] at hm) hp with h | h | ⟨h, _⟩
        · subst h; unfold Lalr.step at hst; revert hst; repeat' split
          all_goals simp
        · exact he h
        · exact he' h

/-- **C93, what is refused.**  When the parser panics because of an invalid token, the message is about the token after those printed as
shifted, and it lists the tokens with an entry in the row of the state on top of the stack printed last, in the order of their
numbers. -/
theorem C93_refused (hG : Generated hash rx ord ps start g l) {toks : List (Token × Nat)} {m : Nat} (hm : (toks.map Prod.snd)[m]? = some 0)
    {fuel : Nat} (he : Lalr.parseIdx g l.action l.goto fuel (toks.map Prod.snd) = .error .invalidToken) :
    ∃ t k stack top under ks msg, toks[(following "  shifting ".toList (Trace.parse l fuel toks).1).length]? = some (t, k) ∧
      (following "STACK: ".toList (Trace.parse l fuel toks).1).getLast? = some stack ∧ Listed (under ++ [top]) stack ∧
      ks.Pairwise (· < ·) ∧ (∀ j, j ∈ ks ↔ ∃ a, l.action.tryIndex top j = some a) ∧ k ∉ ks ∧
      (msg = "Some([".toList ++ ", ".toList.intercalate (ks.map (Show.token g)) ++ "])".toList ∨ (ks = [] ∧ msg = "None".toList)) ∧
      (Trace.parse l fuel toks).2 = some ("Invalid token: ".toList ++ Trace.token t ++ "\nValid: ".toList ++ msg) := by
  cases hs : Lalr.startState (toks.map Prod.snd) with
  | error e =>
    cases toks with
    | nil => simp at hm
    | cons a l => cases hs
  | ok st0 =>
    have hrun : Lalr.run g l.action l.goto (toks.map Prod.snd) fuel st0 = .error .invalidToken := by
      unfold Lalr.parseIdx at he
      cases hr : Lalr.run g l.action l.goto (toks.map Prod.snd) fuel st0 with
      | ok st' => simp [hs, hr, bind, Except.bind, pure, Except.pure] at he
      | error e => simpa [hs, hr, bind, Except.bind] using he
    obtain ⟨n, hn, st, hr, hst⟩ := Lalr.run_error_lt (by simp) fuel hrun
    obtain ⟨tok, ls, g1, g2, g3, g4, _, _, _⟩ := trace_runs hG hm hs hr
    obtain ⟨b1, b2, b3⟩ := C68_keys hG.built st
    obtain rfl : l.grammar = g := (new_ok hG.new).1
    obtain ⟨d, rfl⟩ : ∃ d, fuel = d + 1 + n := ⟨fuel - n - 1, by omega⟩
    obtain ⟨a1, _, a3, _⟩ := Trace.printed_invalid (tok := tok) hst
    have hl : Trace.loop l toks (d + 1) n tok st = (Trace.printed l tok st, some (Trace.complaint l tok st)) := by
      rw [Trace.loop, hst]
    have hi := inside hG hm hs hr
    rw [List.length_map] at hi
    obtain ⟨top, under, hstk⟩ := List.exists_cons_of_ne_nil (C31_stack hG.built hs hr)
    have hcur : (toks[st.i]?).map Prod.snd = some st.a := by
      obtain ⟨look, hT⟩ := hG.built.sound
      obtain ⟨f, w, hI⟩ := hr.inv hG.built.ok hT (Lalr.Inv.start (look := look) (lalr := l.states) hs)
      have := hI.cur
      rwa [List.length_map, Nat.min_eq_left (by omega), List.getElem?_map] at this
    have hget : toks[st.i]? = some (tok, st.a) := by
      rw [List.getElem?_eq_getElem hi] at g1 hcur ⊢
      simp only [Option.map_some, Option.some.injEq] at g1 hcur
      rw [← g1, ← hcur]
    rw [g2, hl]
    refine ⟨tok, st.a, _, top, under.reverse, (Lalr.reported l.action st).getD [],
      match Lalr.reported l.action st with
        | none => "None".toList
        | some ks => "Some(".toList ++ Trace.list (ks.map (Show.token l.grammar)) ++ [')'], ?_, ?_, Trace.stack_listed st.stack |> (by simpa [hstk] using ·), b1, ?_, b3 _ hst, ?_, rfl⟩
    · simp only [following_append, a3, List.append_nil, g3, hget]
    · simp only [following_append, a1, List.getLast?_append, List.getLast?_singleton, Option.some_or, hstk]
    · intro j
      rw [b2]
      simp [hstk]
    · cases Lalr.reported l.action st with
      | none => exact .inr ⟨rfl, rfl⟩
      | some ks =>
        left
        simp only [Option.getD_some, Trace.list, Trace.join_eq]
        simp only [List.append_assoc]
        rfl

/-- Where the parser panics, the tokens printed as shifted are those before the current one. -/
theorem shifts_at (hG : Generated hash rx ord ps start g l) {toks : List (Token × Nat)} {m : Nat} (hm : (toks.map Prod.snd)[m]? = some 0)
    {fuel : Nat} (he : Lalr.parseIdx g l.action l.goto fuel (toks.map Prod.snd) = .error .invalidToken) {st0 st : Lalr.PState}
    (hs : Lalr.startState (toks.map Prod.snd) = .ok st0) {n : Nat} (hr : Runs g l.action l.goto (toks.map Prod.snd) n st0 st)
    (hst : Lalr.step g l.action l.goto (toks.map Prod.snd) st = .error .invalidToken) :
    (following "  shifting ".toList (Trace.parse l fuel toks).1).length = st.i := by
  have hrun : Lalr.run g l.action l.goto (toks.map Prod.snd) fuel st0 = .error .invalidToken := by
    unfold Lalr.parseIdx at he
    cases hr : Lalr.run g l.action l.goto (toks.map Prod.snd) fuel st0 with
    | ok st' => simp [hs, hr, bind, Except.bind, pure, Except.pure] at he
    | error e => simpa [hs, hr, bind, Except.bind] using he
  obtain ⟨n', hn, st', hr', hst'⟩ := Lalr.run_error_lt (by simp) fuel hrun
  obtain rfl := Lalr.runs_error_unique hr hst hr' hst'
  obtain ⟨tok, ls, _, g2, g3, _⟩ := trace_runs hG hm hs hr'
  obtain rfl : l.grammar = g := (new_ok hG.new).1
  obtain ⟨d, rfl⟩ : ∃ d, fuel = d + 1 + n' := ⟨fuel - n' - 1, by omega⟩
  obtain ⟨_, _, a3, _⟩ := Trace.printed_invalid (tok := tok) hst
  have hl : Trace.loop l toks (d + 1) n' tok st = (Trace.printed l tok st, some (Trace.complaint l tok st)) := by
    rw [Trace.loop, hst]
  rw [g2, hl]
  simp only [following_append, a3, List.append_nil, g3]

/-- **C93, the wrong token.**  The tokens printed as shifted begin a sentence, and the message is about the token after them; no tree of which
all transitions are kept goes on with that token, and if it is the end marker, no such tree ends there. -/
theorem C93_wrong (hG : Generated hash rx ord ps start g l) (hc : NoCollisions hash g (Lalr.depthOf g)) (hP : Productive (AstRule ps) start.name)
    {toks : List (Token × Nat)} {m : Nat} (hm : (toks.map Prod.snd)[m]? = some 0)
    {fuel : Nat} (he : Lalr.parseIdx g l.action l.goto fuel (toks.map Prod.snd) = .error .invalidToken) :
    ∃ n t k ws v msg, (following "  shifting ".toList (Trace.parse l fuel toks).1).length = n ∧ toks[n]? = some (t, k) ∧
      (Trace.parse l fuel toks).2 = some ("Invalid token: ".toList ++ Trace.token t ++ "\nValid: ".toList ++ msg) ∧
      Numbers g ((toks.map Prod.snd).take n) ws ∧ Sentence (AstRule ps) start.name (ws ++ v) ∧
      (k = 0 → ∀ f, IsTree g.prods start.name f ws → ¬ KeptTree g f) ∧
      ∀ x v f, g.tokens[k]? = some x → IsTree g.prods start.name f (ws ++ x :: v) → ¬ KeptTree g f := by
  obtain ⟨st0, n, st, ws, h1, h2, h3, _, h5, ⟨v, h6⟩, h7, h8⟩ := C66_error hG.built hc hP hm (by simp) he
  obtain ⟨t, k, _, _, _, _, msg, c1, _, _, _, _, _, _, c2⟩ := C93_refused hG hm he
  have hi := shifts_at hG hm he h1 h2 h3
  rw [hi] at c1
  have hk : (toks.map Prod.snd)[st.i]? = some k := by rw [List.getElem?_map, c1]; rfl
  exact ⟨st.i, t, k, ws, v, msg, hi, c1, c2, h5, h6, fun hz => h7 (hz ▸ hk), fun x v f hx hT => h8 k x hk hx v f hT⟩

/-- C53 of what is printed, given that the tables have every transition (C26): the message of the panic is about the first token that
cannot go on.  Missing: tables with dropped transitions (`C28_false`), for those see `C93_wrong`. -/
theorem C53_printed_partial (hG : Generated hash rx ord ps start g l) (hc : NoCollisions hash g (Lalr.depthOf g))
    (hA : AllTransitions g l.states l.action l.goto) (hP : Productive (AstRule ps) start.name)
    {toks : List (Token × Nat)} {m : Nat} (hm : (toks.map Prod.snd)[m]? = some 0)
    {fuel : Nat} (he : Lalr.parseIdx g l.action l.goto fuel (toks.map Prod.snd) = .error .invalidToken) :
    ∃ n t k ws v msg, (following "  shifting ".toList (Trace.parse l fuel toks).1).length = n ∧ toks[n]? = some (t, k) ∧
      (Trace.parse l fuel toks).2 = some ("Invalid token: ".toList ++ Trace.token t ++ "\nValid: ".toList ++ msg) ∧
      Numbers g ((toks.map Prod.snd).take n) ws ∧ Sentence (AstRule ps) start.name (ws ++ v) ∧
      (k = 0 → ¬ Sentence (AstRule ps) start.name ws) ∧
      ∀ x v, g.tokens[k]? = some x → ¬ Sentence (AstRule ps) start.name (ws ++ x :: v) := by
  obtain ⟨st0, n, st, ws, h1, h2, h3, _, h5, ⟨v, h6⟩, h7, h8⟩ := C53_first_error_partial hG.built hc hA hP hm he
  obtain ⟨t, k, _, _, _, _, msg, c1, _, _, _, _, _, _, c2⟩ := C93_refused hG hm he
  have hi := shifts_at hG hm he h1 h2 h3
  rw [hi] at c1
  have hk : (toks.map Prod.snd)[st.i]? = some k := by rw [List.getElem?_map, c1]; rfl
  exact ⟨st.i, t, k, ws, v, msg, hi, c1, c2, h5, h6, fun hz => h7 (hz ▸ hk), fun x v hx => h8 k x hk hx v⟩

/-- C93.  How a token is printed, when nothing in it needs a backslash. -/
theorem C93_token {t : Token} (h : ∀ w, w = t.name ∨ t.val = some w → ∀ c ∈ w, c ≠ '"' ∧ c ≠ '\\' ∧ c ≠ '\n') :
    (t.val = none → Trace.token t = "Token { name: \"".toList ++ t.name ++ "\", val: None }".toList) ∧
    ∀ v, t.val = some v → Trace.token t = "Token { name: \"".toList ++ t.name ++ "\", val: Some(\"".toList ++ v ++ "\") }".toList := by
  have hn := Show.quoted_plain (h _ (.inl rfl))
  have e1 : "Token { name: \"".toList = "Token { name: ".toList ++ ['"'] := by decide
  have e2 : "\", val: None }".toList = ['"'] ++ (", val: ".toList ++ ("None".toList ++ " }".toList)) := by decide
  have e3 : "\", val: Some(\"".toList = ['"'] ++ (", val: ".toList ++ ("Some(".toList ++ ['"'])) := by decide
  have e4 : "\") }".toList = ['"'] ++ ([')'] ++ " }".toList) := by decide
  have hs : ∀ v, t.val = some v → Show.quoted v = ['"'] ++ v ++ ['"'] := fun v hv => Show.quoted_plain (h v (.inr hv))
  rw [e1, e2, e3, e4]
  unfold Trace.token
  rw [hn]
  clear h hn e1 e2 e3 e4
  generalize "Token { name: ".toList = A
  generalize ", val: ".toList = B
  generalize " }".toList = C
  generalize "None".toList = D
  generalize "Some(".toList = E
  refine ⟨fun hv => ?_, fun v hv => ?_⟩
  · rw [hv]; simp only [List.append_assoc]
  · rw [hv]; dsimp only; rw [hs v hv]; simp only [List.append_assoc]

end

example : Trace.token ⟨"[0-9]+".toList, some "12".toList⟩ = "Token { name: \"[0-9]+\", val: Some(\"12\") }".toList := by
  refine ((@C93_token ⟨"[0-9]+".toList, some "12".toList⟩ ?_).2 _ rfl).trans (by decide)
  rintro w (rfl | h)
  · decide
  · cases h; decide

/-- `x`, `y` and the end. -/
def xyToks : List (Token × Nat) := [(⟨"x".toList, none⟩, 1), (⟨"y".toList, none⟩, 2), (⟨"EOF".toList, none⟩, 0)]

set_option maxRecDepth 20000 in
-- C93: the hypotheses, and what is printed.
example : Generated id (fun _ => none) (fun _ l => l) rowAst (startOf rowAst) (lower rowAst) rowL ∧
    xyToks.map Prod.snd = [1, 2] ++ 0 :: [] ∧
    Lalr.parseIdx (lower rowAst) rowL.action rowL.goto 9 (xyToks.map Prod.snd) = .ok [2, 1] ∧
    Trace.parse rowL 9 xyToks = (["STACK: [0]",
      "S=0 TOKEN TokenIdx(1): Token { name: \"x\", val: None } i=0",
      "  shifting 3",
      "STACK: [0, 3]",
      "S=3 TOKEN TokenIdx(2): Token { name: \"y\", val: None } i=1",
      "  shifting 2",
      "STACK: [0, 3, 2]",
      "S=2 TOKEN TokenIdx(0): Token { name: \"EOF\", val: None } i=2",
      "  reducing by S ⇒  y",
      "  pushing (4) => STACK: [0, 3, 4]",
      "STACK: [0, 3, 4]",
      "S=4 TOKEN TokenIdx(0): Token { name: \"EOF\", val: None } i=2",
      "  reducing by S ⇒  x S",
      "  pushing (1) => STACK: [0, 1]",
      "STACK: [0, 1]",
      "S=1 TOKEN TokenIdx(0): Token { name: \"EOF\", val: None } i=2",
      "Accepting!",
      "LOOP COUNT: 5"].map String.toList, none) ∧
    Lalr.parseIdx (lower rowAst) rowL.action rowL.goto 9 ((xyToks.eraseIdx 1).map Prod.snd) = .error .invalidToken ∧
    Trace.parse rowL 9 (xyToks.eraseIdx 1) = (["STACK: [0]", "S=0 TOKEN TokenIdx(1): Token { name: \"x\", val: None } i=0", "  shifting 3", "STACK: [0, 3]",
      "S=3 TOKEN TokenIdx(0): Token { name: \"EOF\", val: None } i=1"].map String.toList,
      some "Invalid token: Token { name: \"EOF\", val: None }\nValid: Some([StrLit(\"x\"), StrLit(\"y\")])".toList) :=
  ⟨row_emitted.gen, rfl, ok_of (by decide +kernel), by decide +kernel, error_of (by decide +kernel), by decide +kernel⟩

-- C93_lines, C93_wrong, C53_printed_partial: the hypotheses, on the tokens of the example before.
example : NoCollisions id (lower rowAst) (Lalr.depthOf (lower rowAst)) ∧ AllTransitions (lower rowAst) rowL.states rowL.action rowL.goto ∧
    Productive (AstRule rowAst) (startOf rowAst).name ∧ ((xyToks.eraseIdx 1).map Prod.snd)[1]? = some 0 ∧
    Runs (lower rowAst) rowL.action rowL.goto (xyToks.map Prod.snd) 2 ⟨[0], 0, 1, []⟩ ⟨[2, 3, 0], 2, 0, []⟩ :=
  ⟨noCollisions_id _ _,
    transitions_of row_emitted.gen.built (noCollisions_id _ _)
      (sets := (ItemSet.items (lower rowAst) (Lalr.depthOf (lower rowAst))).toOption.getD [])
      (ok_of_isSome (by decide +kernel)) (by decide +kernel),
    productive_of row_emitted.gen.built [("S".toList, .node 2 (.leaf (.strLit ['y']) .nil) .nil)] (by decide +kernel) (by decide +kernel),
    rfl, runs_of (by decide +kernel)⟩

end Verif.Props
