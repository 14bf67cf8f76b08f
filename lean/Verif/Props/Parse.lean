import Verif.Proofs.LoopOk
import Verif.Props.Tables

/-! # Properties of the parser (C27 - C31, C34) -/

namespace Verif.Props
open Verif Spec

/-- Everything the code does up to the tables has succeeded: the grammar is lowered,
and the tables are built.  Nothing is assumed of the hash. -/
structure Built {H : Type} [DecidableEq H] (hash : List Item → H) (ps : List Ast.Prod) (start : Ast.Prod)
    (g : Grammar) (depth : Nat) (action : Table Nat Action) (got : Table Str Nat) (states : List ItemSet) : Prop where
  expr : Expressible ps
  first : ps.find? (fun p => p.isStart) = some start
  ast : Grammar.fromAst ps = .ok g
  tables : Lalr.makeTables hash g depth = .ok (action, got, states)

/-- The hash keeps the cores of the LR(1) sets of `g` apart. -/
def NoCollisions {H : Type} (hash : List Item → H) (g : Grammar) (depth : Nat) : Prop :=
  ∀ lr, ItemSet.items g depth = .ok lr → CollisionFree hash lr

theorem noCollisions_id (g : Grammar) (depth : Nat) : NoCollisions id g depth := fun lr _ => collisionFree_id lr

section
variable {H : Type} [DecidableEq H] {hash : List Item → H} {ps : List Ast.Prod} {start : Ast.Prod}
  {g : Grammar} {depth : Nat} {action : Table Nat Action} {got : Table Str Nat} {states : List ItemSet}

theorem Built.ok (hB : Built hash ps start g depth action got states) : Grammar.GOk g :=
  Grammar.gok_of_fromAst hB.expr hB.ast

theorem Built.sound (hB : Built hash ps start g depth action got states) :
    ∃ look, Lalr.TabSound g states action got look := Lalr.tabSound hB.ok hB.tables

theorem Built.tab (hB : Built hash ps start g depth action got states) (hc : NoCollisions hash g depth) :
    ∃ look, Lalr.TabOk g states action got look := by
  obtain ⟨lr, m, _, _, _, _, hT⟩ := Lalr.tabOk hB.ok hc hB.tables
  exact ⟨_, hT⟩

/-- The numbers `w` are the numbers of the symbols `ws`. -/
def Numbers (g : Grammar) (w : List Nat) (ws : List Sym) : Prop := w.map (fun k => g.tokens[k]?) = ws.map some

/-! ## C27 -/

/-- C27.  What the parser accepts, up to the first end marker, is a sentence of the
source grammar, and the reductions are the postorder of a parse tree of it. -/
theorem C27_sound (hB : Built hash ps start g depth action got states) {fuel : Nat} {toks out : List Nat}
    (hp : Lalr.parseIdx g action got fuel toks = .ok out) :
    ∃ w rest ws f, toks = w ++ 0 :: rest ∧ Numbers g w ws ∧ Sentence (AstRule ps) start.name ws ∧
      IsTree g.prods start.name f ws ∧ f.post = out := by
  have hok := hB.ok
  obtain ⟨look, hT⟩ := hB.sound
  unfold Lalr.parseIdx at hp
  cases hs : Lalr.startState toks with
  | error e => simp [hs, bind, Except.bind] at hp
  | ok st =>
    cases hr : Lalr.run g action got toks fuel st with
    | error e => simp [hs, hr, bind, Except.bind] at hp
    | ok st' =>
      simp only [hs, hr, bind, Except.bind, pure, Except.pure, Except.ok.injEq] at hp
      obtain ⟨f, w, hI, ha, S, hS, hroots⟩ :=
        (Lalr.run_spec hok hT fuel (Lalr.Inv.start (look := look) (g := g) (lalr := states) hs)).1 st' hr
      rw [Grammar.start_prod hB.ast hB.first] at hS
      cases hS
      obtain ⟨rest, hrest⟩ := hI.at_eof hok ha
      refine ⟨w, rest, f.yield, f, hrest, hI.yield, ?_, ⟨hI.valid, hroots, rfl⟩, hI.post.trans hp⟩
      rw [← Grammar.sentence_iff hok hB.ast hB.first (Grammar.start_ne hok hB.ast hB.first)]
      refine ⟨Forest.yield_term f hI.valid, ?_⟩
      rw [← hroots]
      exact Forest.steps f hI.valid

/-! ## C28 -/

/-- C28, given that the tables have every transition (C26): every sentence is
accepted, in as many iterations as its tree has nodes and leaves plus one.
Missing: tables with dropped transitions (`C28_false`), colliding hashes (`C62_false`). -/
theorem C28_complete_partial (hB : Built hash ps start g depth action got states)
    (hc : NoCollisions hash g depth) (hA : AllTransitions g states action got) {ws : List Sym} (hw : Sentence (AstRule ps) start.name ws)
    {w : List Nat} (hn : Numbers g w ws) :
    ∃ f, IsTree g.prods start.name f ws ∧ ∀ rest fuel, ws.length + f.post.length < fuel →
      Lalr.parseIdx g action got fuel (w ++ 0 :: rest) = .ok f.post := by
  have hok := hB.ok
  obtain ⟨look, hT⟩ := hB.tab hc
  rw [← Grammar.sentence_iff hok hB.ast hB.first (Grammar.start_ne hok hB.ast hB.first)] at hw
  obtain ⟨f, h1, h2, rfl⟩ := Forest.of_steps hw.2 hw.1
  refine ⟨f, ⟨h1, h2, rfl⟩, fun rest fuel hf => ?_⟩
  exact Lalr.follow_start hok hT ((hT.transitions hok).mp hA) (Grammar.start_prod hB.ast hB.first) h1 h2 hn hf

/-! ## C29 -/

/-- C29, given that the tables have every transition: every sentence has one parse
tree.  Missing: tables with dropped transitions (`C29_false`), colliding hashes. -/
theorem C29_unambiguous_partial (hB : Built hash ps start g depth action got states)
    (hc : NoCollisions hash g depth) (hA : AllTransitions g states action got) {ws : List Sym} {f f' : Forest}
    (hf : IsTree g.prods start.name f ws) (hf' : IsTree g.prods start.name f' ws) : f = f' := by
  have hok := hB.ok
  obtain ⟨look, hT⟩ := hB.tab hc
  obtain ⟨h1, h2, rfl⟩ := hf
  obtain ⟨h1', h2', h3'⟩ := hf'
  have hC := (hT.transitions hok).mp hA
  have hS := Grammar.start_prod hB.ast hB.first
  obtain ⟨w, hw⟩ : ∃ w : List Nat, Numbers g w f.yield := by
    have hmem : ∀ t ∈ f.yield, ∃ k : Nat, g.tokens[k]? = some t := by
      intro t ht
      have hst := Forest.steps f h1
      rw [h2] at hst
      have h0 : ∀ x ∈ [Sym.nonTerm start.name], x ∈ g.tokens := by
        intro x hx
        simp only [List.mem_singleton] at hx
        subst hx
        exact (hok.tokMem _).mpr (.inr ⟨_, List.mem_of_getElem? hS, by simp⟩)
      exact List.getElem?_of_mem (Lalr.steps_tokens hok h0 hst t ht)
    generalize f.yield = l at hmem
    induction l with
    | nil => exact ⟨[], rfl⟩
    | cons t l ih =>
      obtain ⟨w, hw⟩ := ih fun t ht => hmem t (by simp [ht])
      obtain ⟨k, hk⟩ := hmem t (by simp)
      exact ⟨k :: w, by simp only [Numbers, List.map_cons, hk] at hw ⊢; rw [hw]⟩
  have e1 := Lalr.follow_start (r := []) hok hT hC hS h1 h2 hw
    (fuel := f.yield.length + f.post.length + f'.post.length + 1) (by omega)
  have e2 := Lalr.follow_start (r := []) hok hT hC hS h1' h2' (w := w) (by rw [h3']; exact hw)
    (fuel := f.yield.length + f.post.length + f'.post.length + 1) (by rw [h3']; omega)
  rw [e1] at e2
  exact (Forest.unique f f' [] [] h1 h1' (h2.trans h2'.symm) (by simpa using e2)).2

/-! ## C30 -/

theorem Built.terminates (hB : Built hash ps start g depth action got states) {look : ItemSet → Sym → Option Nat}
    (hT : Lalr.TabSound g states action got look) {R : Str → List Sym → Prop} (hu : ∀ A, ¬ UnitPlus R A (.nonTerm A))
    {toks : List Nat} (hR : ∀ (st st' : Lalr.PState) (f : Forest) (w : List Nat) (p : Nat) (prod : Production) (X : Sym),
      Lalr.Inv g states look toks st f w → Lalr.step g action got toks st = .ok (some st') →
      st'.out = st.out ++ [p] → g.prods[p]? = some prod → prod.inputs = [X] → R prod.name [X])
    {n : Nat} (hn : toks[n]? = some 0)
    {fuel : Nat} (hf : (2 * n + 1) * (g.prods.length + 1) ≤ fuel) :
    Lalr.parseIdx g action got fuel toks ≠ .error .outOfFuel := by
  have hok := hB.ok
  unfold Lalr.parseIdx
  cases hs : Lalr.startState toks with
  | error e =>
    cases toks with
    | nil => simp at hn
    | cons a l => cases hs
  | ok st =>
    have hi : st.i = 0 := by
      cases toks with
      | nil => cases hs
      | cons a l => cases hs; rfl
    have hI := Lalr.Inv.start (look := look) (g := g) (lalr := states) hs
    have hm : Lalr.measure R g n st.i .nil < fuel := by
      have := Lalr.measure_le (R := R) (g := g) n st.i .nil
      simp only [hi, Forest.roots, List.length_nil, Nat.sub_zero, Nat.add_zero] at this ⊢
      rw [Nat.add_mul, Nat.one_mul] at hf
      omega
    have := Lalr.run_terminates hok hT hu hn hR fuel hI (by omega) hm
    simp only [bind, Except.bind]
    cases hr : Lalr.run g action got toks fuel st with
    | error e => simp only; intro h; cases h; exact this hr
    | ok st' => simp [pure, Except.pure]

/-- C30, for grammars without unit cycles: with the end marker at position `n` the
loop ends within `(2n + 1)(P + 1)` iterations, `P` the number of productions.
Missing: grammars with a unit cycle (`C30_false`). -/
theorem C30_terminates_partial (hB : Built hash ps start g depth action got states)
    (hu : ∀ A, ¬ UnitPlus (AstRule ps) A (.nonTerm A)) {toks : List Nat} {n : Nat} (hn : toks[n]? = some 0)
    {fuel : Nat} (hf : (2 * n + 1) * (g.prods.length + 1) ≤ fuel) :
    Lalr.parseIdx g action got fuel toks ≠ .error .outOfFuel := by
  obtain ⟨look, hT⟩ := hB.sound
  exact hB.terminates hT (Grammar.unit_ast hB.ok hB.ast hB.first hu)
    (fun _ _ _ _ _ prod _ _ _ _ hp hi => ⟨prod, List.mem_of_getElem? hp, rfl, hi⟩) hn hf

/-- C30, given that the tables have every transition (C26): the same bound for every
grammar, with or without unit cycles.  A cycle some state enters would be a conflict.
Missing: tables with dropped transitions (`C30_false`), colliding hashes. -/
theorem C30_complete_partial (hB : Built hash ps start g depth action got states)
    (hc : NoCollisions hash g depth) (hA : AllTransitions g states action got) {toks : List Nat} {n : Nat} (hn : toks[n]? = some 0)
    {fuel : Nat} (hf : (2 * n + 1) * (g.prods.length + 1) ≤ fuel) :
    Lalr.parseIdx g action got fuel toks ≠ .error .outOfFuel := by
  have hok := hB.ok
  obtain ⟨lr, m, _, _, hM, _, hT⟩ := Lalr.tabOk hok hc hB.tables
  refine hB.terminates hT.toTabSound (Lalr.used_acyclic hok hM hT ((hT.transitions hok).mp hA)) ?_ hn hf
  intro st st' f w p prod X hI hs ho hp hi
  rw [← hi]
  exact Lalr.step_used hok hT.toTabSound hI hs ho hp

/-- C30, exactly, for every grammar and all tables: with the end marker at position `n` the loop ends within
`(2n + 1)(P + 1)` iterations, or it never ends; it never ends just when it comes back to the same stack with the same
token, and then the grammar has a unit cycle. -/
theorem C30_exact (hB : Built hash ps start g depth action got states) {toks : List Nat} {n : Nat} (hn : toks[n]? = some 0) :
    ((∀ fuel, (2 * n + 1) * (g.prods.length + 1) ≤ fuel → Lalr.parseIdx g action got fuel toks ≠ .error .outOfFuel) ∨
      ∀ fuel, Lalr.parseIdx g action got fuel toks = .error .outOfFuel) ∧
    ((∀ fuel, Lalr.parseIdx g action got fuel toks = .error .outOfFuel) ↔
      ∃ st0 j k st st', Lalr.startState toks = .ok st0 ∧ Runs g action got toks j st0 st ∧
        Runs g action got toks (k + 1) st st' ∧ st'.stack = st.stack ∧ st'.i = st.i ∧ st'.a = st.a) ∧
    ((∀ fuel, Lalr.parseIdx g action got fuel toks = .error .outOfFuel) → ∃ A, UnitPlus (AstRule ps) A (.nonTerm A)) := by
  have hok := hB.ok
  obtain ⟨look, hT⟩ := hB.sound
  have hidx : ∀ {st0}, Lalr.startState toks = .ok st0 → ∀ fuel, Lalr.parseIdx g action got fuel toks = .error .outOfFuel →
      Lalr.run g action got toks fuel st0 = .error .outOfFuel := by
    intro st0 hs fuel hf
    unfold Lalr.parseIdx at hf
    cases hr : Lalr.run g action got toks fuel st0 with
    | ok st' => simp [hs, hr, bind, Except.bind, pure, Except.pure] at hf
    | error e => simpa [hs, hr, bind, Except.bind] using hf
  have hback : (∃ st0 j k st st', Lalr.startState toks = .ok st0 ∧ Runs g action got toks j st0 st ∧
        Runs g action got toks (k + 1) st st' ∧ st'.stack = st.stack ∧ st'.i = st.i ∧ st'.a = st.a) →
      ∀ fuel, Lalr.parseIdx g action got fuel toks = .error .outOfFuel := by
    rintro ⟨st0, j, k, st, st', h0, h1, h2, h3, h4, h5⟩ fuel
    by_contra hne
    have := Lalr.parseIdx_mono j rfl hne
    unfold Lalr.parseIdx at this hne
    simp only [h0, bind, Except.bind] at this hne
    rw [Nat.add_comm, h1.run fuel, Lalr.run_back h2 h3 h4 h5 fuel st.out] at this
    simp only at this
    rw [← this] at hne
    exact hne rfl
  have hloop : ∀ fuel, (2 * n + 1) * (g.prods.length + 1) ≤ fuel → Lalr.parseIdx g action got fuel toks = .error .outOfFuel →
      (∃ st0 j k st st', Lalr.startState toks = .ok st0 ∧ Runs g action got toks j st0 st ∧
        Runs g action got toks (k + 1) st st' ∧ st'.stack = st.stack ∧ st'.i = st.i ∧ st'.a = st.a) ∧
      ∃ A, UnitPlus (AstRule ps) A (.nonTerm A) := by
    intro fuel hf ho
    cases hs : Lalr.startState toks with
    | error e =>
      cases toks with
      | nil => simp at hn
      | cons a l => cases hs
    | ok st0 =>
      have hi : st0.i = 0 := by
        cases toks with
        | nil => cases hs
        | cons a l => cases hs; rfl
      obtain ⟨j, k, st1, st2, h1, h2, h3, h4, h5, A, hA⟩ := Lalr.run_loops (j0 := 0) (st0 := st0) (V := []) hok hT hn fuel .refl
        (Lalr.Inv.start (look := look) (g := g) (lalr := states) hs) (by omega) ⟨List.nodup_nil, by simp⟩
        (by
          rw [Nat.add_mul, Nat.one_mul] at hf
          simp only [hi, Forest.roots, List.length_nil, Nat.sub_zero, Nat.add_zero]
          omega) (hidx hs fuel ho)
      refine ⟨⟨st0, j, k, st1, st2, rfl, h1, h2, h3, h4, h5⟩, ?_⟩
      by_contra hno
      exact Grammar.unit_ast hok hB.ast hB.first (fun A hA => hno ⟨A, hA⟩) A hA
  refine ⟨?_, ⟨fun h => (hloop _ (Nat.le_refl _) (h _)).1, hback⟩, fun h => (hloop _ (Nat.le_refl _) (h _)).2⟩
  by_cases hall : ∀ fuel, (2 * n + 1) * (g.prods.length + 1) ≤ fuel → Lalr.parseIdx g action got fuel toks ≠ .error .outOfFuel
  · exact .inl hall
  · right
    simp only [not_forall, not_not] at hall
    obtain ⟨fuel, hf, ho⟩ := hall
    exact hback (hloop fuel hf ho).1

/-! ## C31 -/

/-- C31.  The loop can only fail with `Invalid token`, or with `Goto is empty` when
a transition is missing (`outOfFuel` is the cut-off of the model). -/
theorem C31_failures (hB : Built hash ps start g depth action got states) {toks : List Nat} (hne : toks ≠ [])
    {fuel : Nat} {e : Err} (he : Lalr.parseIdx g action got fuel toks = .error e) :
    e = .outOfFuel ∨ e = .invalidToken ∨ (e = .gotoEmpty ∧ ¬ AllTransitions g states action got) := by
  have hok := hB.ok
  obtain ⟨look, hT⟩ := hB.sound
  unfold Lalr.parseIdx at he
  cases hs : Lalr.startState toks with
  | error e =>
    cases toks with
    | nil => exact absurd rfl hne
    | cons a l => cases hs
  | ok st =>
    cases hr : Lalr.run g action got toks fuel st with
    | ok st' => simp [hs, hr, bind, Except.bind, pure, Except.pure] at he
    | error e' =>
      simp only [hs, hr, bind, Except.bind, Except.error.injEq] at he
      subst he
      rw [hT.transitions hok]
      exact (Lalr.run_spec hok hT fuel (Lalr.Inv.start (look := look) (g := g) (lalr := states) hs)).2 _ hr

/-- C31.  In every state the loop goes through, the stack is not empty. -/
theorem C31_stack (hB : Built hash ps start g depth action got states) {toks : List Nat} {st0 st : Lalr.PState}
    (hs : Lalr.startState toks = .ok st0) {n : Nat} (hr : Runs g action got toks n st0 st) : st.stack ≠ [] := by
  have hok := hB.ok
  obtain ⟨look, hT⟩ := hB.sound
  obtain ⟨f, w, hI⟩ := hr.inv hok hT (Lalr.Inv.start (look := look) (g := g) (lalr := states) hs)
  obtain ⟨s, rest, _, h, _⟩ := hI.path.top hT
  rw [h]; simp

/-! ## C34 -/

/-- C34.  At every point of a run the tokens shifted so far begin a sentence. -/
theorem C34_viable_prefix (hB : Built hash ps start g depth action got states)
    (hP : Productive (AstRule ps) start.name) {toks : List Nat} {m : Nat} (hm : toks[m]? = some 0)
    {st0 st : Lalr.PState} (hs : Lalr.startState toks = .ok st0) {n : Nat} (hr : Runs g action got toks n st0 st) :
    st.i ≤ m ∧ ∃ ws v, Numbers g (toks.take st.i) ws ∧ Sentence (AstRule ps) start.name (ws ++ v) := by
  have hok := hB.ok
  obtain ⟨look, hT⟩ := hB.sound
  obtain ⟨f, w, hI⟩ := hr.inv hok hT (Lalr.Inv.start (look := look) (g := g) (lalr := states) hs)
  obtain ⟨hle, hw⟩ := hI.le hok hm
  have hS := Grammar.start_prod hB.ast hB.first
  have hne := Grammar.start_ne hok hB.ast hB.first
  have hpr : ∀ A, (∃ p ∈ g.prods, Sym.nonTerm A ∈ p.inputs) →
      ∃ v, (∀ t ∈ v, IsTerm t) ∧ Steps (Rule g.prods) [.nonTerm A] v := by
    rintro A ⟨p, hp, hA⟩
    have hAa : A ≠ g.augName := by rintro rfl; exact hok.fresh p hp hA
    have : ∃ v, Sentence (AstRule ps) A v := by
      rcases (Grammar.rule_iff hB.ast hB.first).mp ⟨p, hp, rfl, rfl⟩ with ⟨_, h2⟩ | h2
      · rw [h2] at hA
        simp only [List.mem_singleton, Sym.nonTerm.injEq] at hA
        rw [hA]; exact hP.1
      · exact hP.2 _ _ A h2 hA
    obtain ⟨v, hv⟩ := this
    rw [← Grammar.sentence_iff hok hB.ast hB.first hAa] at hv
    exact ⟨v, hv⟩
  obtain ⟨v, hv⟩ := hI.viable hok hT hS hpr
  rw [Grammar.sentence_iff hok hB.ast hB.first hne] at hv
  exact ⟨hle, f.yield, v, by rw [← hw]; exact hI.yield, hv⟩

/-! ## C52, C53 -/

theorem takeWhile_zero : ∀ {w r : List Nat}, 0 ∉ w → List.takeWhile (fun k => k != 0) (w ++ 0 :: r) = w
  | [], r, _ => by simp
  | k :: w, r, h => by
    have hk : k ≠ 0 := fun he => h (by simp [he])
    simp [hk, takeWhile_zero fun he => h (List.mem_cons_of_mem k he)]

/-- C52, given that the tables have every transition (C26): the parser stops and decides whether the
tokens before the end marker are a sentence.
Missing: tables with dropped transitions (`C28_false`, `C30_false`), colliding hashes (`C62_false`). -/
theorem C52_decides_partial (hB : Built hash ps start g depth action got states)
    (hc : NoCollisions hash g depth) (hA : AllTransitions g states action got) {w : List Nat} (h0 : 0 ∉ w) {ws : List Sym} (hn : Numbers g w ws)
    {rest : List Nat} {fuel : Nat} (hf : (2 * w.length + 1) * (g.prods.length + 1) ≤ fuel) :
    (Sentence (AstRule ps) start.name ws →
      ∃ f, IsTree g.prods start.name f ws ∧ Lalr.parseIdx g action got fuel (w ++ 0 :: rest) = .ok f.post) ∧
    (¬ Sentence (AstRule ps) start.name ws →
      Lalr.parseIdx g action got fuel (w ++ 0 :: rest) = .error .invalidToken) := by
  have hterm := C30_complete_partial hB hc hA (toks := w ++ 0 :: rest) (n := w.length) (by simp) hf
  constructor
  · intro hS
    obtain ⟨f, hT, hall⟩ := C28_complete_partial hB hc hA hS hn
    refine ⟨f, hT, ?_⟩
    have := hall rest (ws.length + f.post.length + 1 + fuel) (by omega)
    rwa [Nat.add_comm _ fuel, Lalr.parseIdx_mono _ rfl hterm] at this
  · intro hS
    cases hp : Lalr.parseIdx g action got fuel (w ++ 0 :: rest) with
    | ok out =>
      exfalso
      obtain ⟨w', rest', ws', f, h1, h2, h3, _⟩ := C27_sound hB hp
      have h0' : 0 ∉ w' := by
        intro hz
        have : g.tokens[0]? ∈ ws'.map some := by
          rw [← h2]; exact List.mem_map_of_mem (f := fun k => g.tokens[k]?) hz
        rw [hB.ok.tok0] at this
        simp only [List.mem_map, Option.some.injEq, exists_eq_right] at this
        exact h3.1 _ this
      have hww : w = w' := by
        have := congrArg (List.takeWhile (fun k => k != 0)) h1
        rwa [takeWhile_zero h0, takeWhile_zero h0'] at this
      subst hww
      have : ws = ws' := by
        have := hn.symm.trans h2
        exact List.map_injective_iff.mpr (fun _ _ => Option.some.inj) this
      subst this
      exact hS h3
    | error e =>
      rcases C31_failures hB (by simp) hp with rfl | rfl | ⟨_, h⟩
      · exact absurd hp hterm
      · rfl
      · exact absurd hA h

/-- C53, given that the tables have every transition (C26): when the parser reports an invalid token,
the tokens it has shifted begin a sentence, and with the token it reports (unless that is the end
marker, and then the tokens shifted are no sentence) they begin none.
Missing: tables with dropped transitions, which refuse sentences (`C28_false`). -/
theorem C53_first_error_partial (hB : Built hash ps start g depth action got states)
    (hc : NoCollisions hash g depth) (hA : AllTransitions g states action got) (hP : Productive (AstRule ps) start.name) {toks : List Nat} {m : Nat}
    (hm : toks[m]? = some 0) {fuel : Nat} (he : Lalr.parseIdx g action got fuel toks = .error .invalidToken) :
    ∃ st0 n st ws, Lalr.startState toks = .ok st0 ∧ Runs g action got toks n st0 st ∧
      Lalr.step g action got toks st = .error .invalidToken ∧
      st.i ≤ m ∧ Numbers g (toks.take st.i) ws ∧ (∃ v, Sentence (AstRule ps) start.name (ws ++ v)) ∧
      (toks[st.i]? = some 0 → ¬ Sentence (AstRule ps) start.name ws) ∧
      ∀ k x, toks[st.i]? = some k → g.tokens[k]? = some x → ∀ v, ¬ Sentence (AstRule ps) start.name (ws ++ x :: v) := by
  have hok := hB.ok
  cases hs : Lalr.startState toks with
  | error e =>
    cases toks with
    | nil => simp at hm
    | cons a l => cases hs
  | ok st0 =>
    have hrun : Lalr.run g action got toks fuel st0 = .error .invalidToken := by
      unfold Lalr.parseIdx at he
      cases hr : Lalr.run g action got toks fuel st0 with
      | ok st' => simp [hs, hr, bind, Except.bind, pure, Except.pure] at he
      | error e => simpa [hs, hr, bind, Except.bind] using he
    obtain ⟨n, st, hr, hst⟩ := Lalr.run_error (by simp) fuel hrun
    obtain ⟨hle, ws, v, hnum, hsent⟩ := C34_viable_prefix hB hP hm hs hr
    have hlen : st.i < toks.length := by
      have := (List.getElem?_eq_some_iff.mp hm).1; omega
    -- a sentence that goes on as the tokens do would be refused
    have key : ∀ (u : List Nat) (us : List Sym) (rest : List Nat), Numbers g u us → Sentence (AstRule ps) start.name us →
        (∀ k ≤ st.i, (u ++ 0 :: rest)[k]? = toks[k]?) → False := by
      intro u us rest hu hsu hag
      obtain ⟨f, _, hall⟩ := C28_complete_partial hB hc hA hsu hu
      have hr' := Lalr.runs_congr hr hag
      have hs' : Lalr.startState (u ++ 0 :: rest) = .ok st0 := by
        have h0 := hag 0 (Nat.zero_le _)
        cases toks with
        | nil => cases hs
        | cons a l =>
          cases hs
          cases htk : u ++ 0 :: rest with
          | nil => simp at htk
          | cons b l' =>
            rw [htk] at h0
            simp only [List.getElem?_cons_zero, Option.some.injEq] at h0
            subst h0
            rfl
      have h1 := hr'.error (Lalr.step_error hst) (fuel := us.length + f.post.length + 1 + n) (by omega)
      have h2 := hall rest (us.length + f.post.length + 1 + n) (by omega)
      unfold Lalr.parseIdx at h2
      simp [hs', h1, bind, Except.bind] at h2
    refine ⟨st0, n, st, ws, rfl, hr, hst, hle, hnum, ⟨v, hsent⟩, ?_, ?_⟩
    · intro hz hS
      refine key _ ws (toks.drop (st.i + 1)) hnum hS fun k _ => ?_
      obtain ⟨hlt, hget⟩ := List.getElem?_eq_some_iff.mp hz
      rw [← hget, ← List.drop_eq_getElem_cons hlt, List.take_append_drop]
    · intro k x hk hx v' hS
      have hne := Grammar.start_ne hok hB.ast hB.first
      have hS' := (Grammar.sentence_iff hok hB.ast hB.first hne).mpr hS
      have hSt : Sym.nonTerm start.name ∈ g.tokens := by
        refine (hok.tokMem _).mpr (.inr ⟨_, List.mem_of_getElem? (Grammar.start_prod hB.ast hB.first), ?_⟩)
        simp
      have hin := Lalr.steps_numbered hok hS'.2 (by simpa using hSt)
      obtain ⟨u, hu⟩ := Lalr.exists_numbers (l := g.tokens) (ws := v') fun y hy => hin y (by simp [hy])
      refine key (toks.take st.i ++ k :: u) (ws ++ x :: v') [] ?_ hS fun k' hk' => ?_
      · unfold Numbers at hnum ⊢
        simp [hnum, hx, hu]
      · rw [List.append_assoc]
        by_cases hlt : k' < st.i
        · rw [List.getElem?_append_left (by simp; omega), List.getElem?_take_of_lt hlt]
        · have : k' = st.i := by omega
          subst this
          rw [List.getElem?_append_right (by rw [List.length_take]; omega)]
          simp only [List.length_take, Nat.min_eq_left (Nat.le_of_lt hlen), Nat.sub_self, List.cons_append,
            List.getElem?_cons_zero, hk]

end

/-! ## Sample: `ccG` -/

theorem ok_of {α : Type} {r : Res α} {a : α} (h : r.toOption = some a) : r = .ok a := by
  cases r with
  | error e => cases h
  | ok b => cases h; rfl

/-- The error of a result. -/
def errOf {α : Type} : Res α → Option Err
  | .ok _ => none
  | .error e => some e

theorem error_of {α : Type} {r : Res α} {e : Err} (h : errOf r = some e) : r = .error e := by
  cases r with
  | error e => cases h; rfl
  | ok b => cases h


theorem cc_built : Built id ccAst ⟨"S".toList, [⟨[.nonTerm "C".toList, .nonTerm "C".toList], "s".toList⟩], true,
    "T".toList⟩ ccG 6 ccTables.1 ccTables.2.1 ccTables.2.2 := by
  refine ⟨cc_expressible, by decide +kernel, cc_fromAst, ?_⟩
  have h := cc_tables
  generalize ccTables = r at h ⊢
  exact h

/-- A parse tree of `c d d`. -/
def ccTree : Forest :=
  .node 1 (.node 2 (.leaf (.strLit "c".toList) (.node 3 (.leaf (.strLit "d".toList) .nil) .nil))
    (.node 3 (.leaf (.strLit "d".toList) .nil) .nil)) .nil

theorem cc_tree : IsTree ccG.prods "S".toList ccTree
    [.strLit "c".toList, .strLit "d".toList, .strLit "d".toList] := by
  have h1 : ccG.prods[1]? = some ⟨"S".toList, [.nonTerm "C".toList, .nonTerm "C".toList], some "s".toList, some "T".toList⟩ := by
    decide +kernel
  have h2 : ccG.prods[2]? = some ⟨"C".toList, [.strLit "c".toList, .nonTerm "C".toList], some "m".toList, some "T".toList⟩ := by
    decide +kernel
  have h3 : ccG.prods[3]? = some ⟨"C".toList, [.strLit "d".toList], some "k".toList, some "T".toList⟩ := by
    decide +kernel
  refine ⟨?_, by simp [ccTree, Forest.roots, h1], rfl⟩
  simp [ccTree, Forest.Valid, Forest.roots, h1, h2, h3, IsTerm]

theorem cc_sentence : Sentence (AstRule ccAst) "S".toList
    [.strLit "c".toList, .strLit "d".toList, .strLit "d".toList] := by
  have hs := Forest.steps ccTree cc_tree.1
  rw [cc_tree.2.1, cc_tree.2.2] at hs
  exact (Grammar.sentence_iff cc_built.ok cc_fromAst cc_built.first
    (Grammar.start_ne cc_built.ok cc_fromAst cc_built.first)).mp
    ⟨by simp [IsTerm], hs⟩

-- C27, C31: an accepted and a rejected input.
example : (Lalr.parseIdx ccG ccTables.1 ccTables.2.1 9 [1, 2, 2, 0]).toOption = some [3, 2, 3, 1] := by decide +kernel
example : Lalr.parseIdx ccG ccTables.1 ccTables.2.1 9 [1, 2, 0] = .error .invalidToken := error_of (by decide +kernel)
-- C28, C29: hypotheses.
example : AllTransitions ccG ccTables.2.2 ccTables.1 ccTables.2.1 ∧
    Sentence (AstRule ccAst) "S".toList [.strLit "c".toList, .strLit "d".toList, .strLit "d".toList] ∧
    Numbers ccG [1, 2, 2] [.strLit "c".toList, .strLit "d".toList, .strLit "d".toList] ∧
    IsTree ccG.prods "S".toList ccTree [.strLit "c".toList, .strLit "d".toList, .strLit "d".toList] :=
  ⟨cc_transitions, cc_sentence, by unfold Numbers; decide +kernel, cc_tree⟩

theorem cc_unit : ∀ A, ¬ UnitPlus (AstRule ccAst) A (.nonTerm A) := by
  have h : ∀ A X, UnitPlus (AstRule ccAst) A X → X = .strLit "d".toList := by
    have h0 : ∀ A X, AstRule ccAst A [X] → X = .strLit "d".toList := by
      rintro A X ⟨p, hp, b, hb, _, hi⟩
      simp only [ccAst, List.mem_cons, List.not_mem_nil, or_false] at hp
      rcases hp with rfl | rfl <;> simp only [List.mem_cons, List.not_mem_nil, or_false] at hb
      · subst hb; simp at hi
      · rcases hb with rfl | rfl
        · simp at hi
        · simpa [Ast.InSym.lower] using hi.symm
    intro A X hx
    induction hx with
    | one h => exact h0 _ _ h
    | cons _ _ ih => exact ih
  intro A hA
  exact absurd (h _ _ hA) (by simp)

-- C30: hypotheses, with `n = 3` and five productions' worth of fuel.
example : (∀ A, ¬ UnitPlus (AstRule ccAst) A (.nonTerm A)) ∧ ([1, 2, 2, 0] : List Nat)[3]? = some 0 ∧
    (2 * 3 + 1) * (ccG.prods.length + 1) ≤ 35 := ⟨cc_unit, rfl, by decide +kernel⟩

theorem cc_productive : Productive (AstRule ccAst) "S".toList := by
  have hd : Sentence (AstRule ccAst) "C".toList [.strLit "d".toList] := by
    refine ⟨by simp [IsTerm], .rule ⟨_, List.mem_cons_of_mem _ List.mem_cons_self, _,
      List.mem_cons_of_mem _ List.mem_cons_self, rfl, rfl⟩⟩
  refine ⟨⟨_, cc_sentence⟩, ?_⟩
  rintro A rhs B ⟨p, hp, b, hb, _, rfl⟩ hB
  have : B = "C".toList := by
    simp only [ccAst, List.mem_cons, List.not_mem_nil, or_false] at hp
    rcases hp with rfl | rfl <;> simp only [List.mem_cons, List.not_mem_nil, or_false] at hb
    · subst hb; simpa [Ast.InSym.lower] using hB
    · rcases hb with rfl | rfl
      · simpa [Ast.InSym.lower] using hB
      · simp [Ast.InSym.lower] at hB
  subst this
  exact ⟨_, hd⟩

-- C34: hypotheses, and a run that has shifted two tokens.
example : Productive (AstRule ccAst) "S".toList ∧ Lalr.startState [1, 2, 0] = .ok ⟨[0], 0, 1, []⟩ ∧
    ∃ st, Runs ccG ccTables.1 ccTables.2.1 [1, 2, 0] 2 ⟨[0], 0, 1, []⟩ st ∧ st.i = 2 := by
  refine ⟨cc_productive, rfl, ⟨[3, 4, 0], 2, 0, []⟩, .head (st1 := ⟨[4, 0], 1, 2, []⟩) (ok_of (by decide +kernel)) (.head (ok_of (by decide +kernel)) .refl), rfl⟩

-- C52: hypotheses, of a sentence and of another list of tokens.
example : 0 ∉ [1, 2, 2] ∧ Numbers ccG [1, 2, 2] [.strLit "c".toList, .strLit "d".toList, .strLit "d".toList] ∧
    0 ∉ [2, 1] ∧ Numbers ccG [2, 1] [.strLit "d".toList, .strLit "c".toList] :=
  ⟨by decide, by unfold Numbers; decide +kernel, by decide, by unfold Numbers; decide +kernel⟩

-- C53: hypotheses, and the conclusion read off: `d c d d` goes wrong at its fourth token.
example : Productive (AstRule ccAst) "S".toList ∧ ([2, 1, 2, 2, 0] : List Nat)[4]? = some 0 ∧
    Lalr.parseIdx ccG ccTables.1 ccTables.2.1 20 [2, 1, 2, 2, 0] = .error .invalidToken :=
  ⟨cc_productive, rfl, error_of (by decide +kernel)⟩

/-! ## Witnesses -/

/-- No three of the LR(1) states share a core. -/
def twoB (sets : List ItemSet) : Bool :=
  sets.all fun a => sets.all fun b => sets.all fun c =>
    !(decide (ItemSet.core a = ItemSet.core b) && decide (ItemSet.core b = ItemSet.core c)) ||
      decide (a = b) || decide (a = c) || decide (b = c)

theorem transitions_of {H : Type} [DecidableEq H] {hash : List Item → H} {ps : List Ast.Prod} {start : Ast.Prod} {g : Grammar}
    {depth : Nat} {action : Table Nat Action} {got : Table Str Nat} {states : List ItemSet}
    (hB : Built hash ps start g depth action got states) (hc : NoCollisions hash g depth) {sets : List ItemSet}
    (hs : ItemSet.items g depth = .ok sets)
    (h2 : twoB sets = true) : AllTransitions g states action got := by
  refine C26_transitions_partial hB.expr hB.ast hc hB.tables ?_
  intro I J K hI hJ hK h1 h3
  obtain ⟨_, hw, _, _, hall⟩ := C22_items_exact hB.expr hB.ast depth hs
  have hget : ∀ {I}, Reach g I → ∃ s ∈ sets, I = Has s := by
    intro I hI
    obtain ⟨s, hs, he⟩ := hall I hI
    exact ⟨s, hs, by funext it la; exact propext (he it la).symm⟩
  obtain ⟨a, ha, rfl⟩ := hget hI
  obtain ⟨b, hb, rfl⟩ := hget hJ
  obtain ⟨c, hcm, rfl⟩ := hget hK
  have h1' := Lalr.core_eq (hw a ha).1 (hw b hb).1 h1
  have h2' := Lalr.core_eq (hw b hb).1 (hw c hcm).1 h3
  have := List.all_eq_true.mp (List.all_eq_true.mp (List.all_eq_true.mp h2 a ha) b hb) c hcm
  simp only [h1', h2', decide_true, Bool.and_self, Bool.not_true, Bool.false_or, Bool.or_eq_true,
    decide_eq_true_eq] at this
  rcases this with (rfl | rfl) | rfl <;> simp

/-- The start production of a sample. -/
def startOf (ps : List Ast.Prod) : Ast.Prod := (ps.find? (fun p => p.isStart)).getD ⟨[], [], true, []⟩

theorem startOf_eq {ps : List Ast.Prod} (h : (ps.find? (fun p => p.isStart)).isSome = true) :
    ps.find? (fun p => p.isStart) = some (startOf ps) := by
  unfold startOf
  cases h' : ps.find? (fun p => p.isStart) with
  | none => simp [h'] at h
  | some p => rfl

theorem built_of {ps : List Ast.Prod} {depth : Nat} {r : Table Nat Action × Table Str Nat × List ItemSet}
    (h1 : Expressible ps) (h2 : (ps.find? (fun p => p.isStart)).isSome = true)
    (h3 : Grammar.fromAst ps = .ok (lower ps)) (h4 : Lalr.makeTables id (lower ps) depth = .ok r) :
    Built id ps (startOf ps) (lower ps) depth r.1 r.2.1 r.2.2 :=
  ⟨h1, startOf_eq h2, h3, h4⟩

theorem three_built : Built id threeAst (startOf threeAst) (lower threeAst) (Lalr.depthOf (lower threeAst))
    (tablesOf (lower threeAst)).1 (tablesOf (lower threeAst)).2.1 (tablesOf (lower threeAst)).2.2 :=
  built_of three_expressible (by decide +kernel) three_fromAst three_tables

/-- `S → "a" S | "d"` and a cycle `U → V`, `V → U` that no sentence reaches. -/
def cycAst : List Ast.Prod :=
  [mkProd true "S" [["a", "S"], ["d"]], mkProd false "U" [["V"], ["d"]], mkProd false "V" [["U"]]]

theorem cyc_built : Built id cycAst (startOf cycAst) (lower cycAst) (Lalr.depthOf (lower cycAst))
    (tablesOf (lower cycAst)).1 (tablesOf (lower cycAst)).2.1 (tablesOf (lower cycAst)).2.2 :=
  built_of (expressibleB_sound (by decide +kernel)) (by decide +kernel) (ok_of_isSome (by decide +kernel))
    (ok_of_isSome (by decide +kernel))

theorem cyc_transitions : AllTransitions (lower cycAst) (tablesOf (lower cycAst)).2.2 (tablesOf (lower cycAst)).1
    (tablesOf (lower cycAst)).2.1 :=
  transitions_of cyc_built (noCollisions_id _ _) (sets := (ItemSet.items (lower cycAst) (Lalr.depthOf (lower cycAst))).toOption.getD [])
    (ok_of_isSome (by decide +kernel)) (by decide +kernel)

-- C30_complete_partial: the hypotheses, for a grammar with a unit cycle.
example : AllTransitions (lower cycAst) (tablesOf (lower cycAst)).2.2 (tablesOf (lower cycAst)).1
      (tablesOf (lower cycAst)).2.1 ∧
    UnitPlus (AstRule cycAst) "U".toList (.nonTerm "U".toList) ∧ ([1, 1, 3, 0] : List Nat)[3]? = some 0 :=
  ⟨cyc_transitions, .cons (B := "V".toList)
    ⟨_, List.mem_cons_of_mem _ List.mem_cons_self, _, List.mem_cons_self, rfl, rfl⟩
    (.one ⟨_, List.mem_cons_of_mem _ (List.mem_cons_of_mem _ List.mem_cons_self), _, List.mem_cons_self, rfl, rfl⟩), rfl⟩

theorem loop_built : Built id loopAst (startOf loopAst) (lower loopAst) (Lalr.depthOf (lower loopAst))
    (tablesOf (lower loopAst)).1 (tablesOf (lower loopAst)).2.1 (tablesOf (lower loopAst)).2.2 :=
  built_of loop_expressible (by decide +kernel) loop_fromAst loop_tables

theorem goto_built : Built id gotoAst (startOf gotoAst) (lower gotoAst) (Lalr.depthOf (lower gotoAst))
    (tablesOf (lower gotoAst)).1 (tablesOf (lower gotoAst)).2.1 (tablesOf (lower gotoAst)).2.2 :=
  built_of goto_expressible (by decide +kernel) goto_fromAst goto_tables

/-- Decides `Forest.Valid`. -/
def validB (ps : List Production) : Forest → Bool
  | .nil => true
  | .leaf t rest => (match t with | .strLit _ => true | .regex _ => true | _ => false) && validB ps rest
  | .node p kids rest =>
    (match ps[p]? with | some prod => decide (prod.inputs = kids.roots ps) | none => false) &&
      validB ps kids && validB ps rest

theorem validB_sound (ps : List Production) : ∀ f, validB ps f = true → f.Valid ps
  | .nil, _ => trivial
  | .leaf t rest, h => by
    simp only [validB, Bool.and_eq_true] at h
    refine ⟨?_, validB_sound ps rest h.2⟩
    cases t <;> simp_all [IsTerm]
  | .node p kids rest, h => by
    simp only [validB, Bool.and_eq_true] at h
    refine ⟨?_, validB_sound ps kids h.1.2, validB_sound ps rest h.2⟩
    cases hp : ps[p]? with
    | none => simp [hp] at h
    | some prod => exact ⟨prod, rfl, by simpa [hp] using h.1.1⟩

theorem tree_of {ps : List Production} {S : Str} {f : Forest} {w : List Sym}
    (h : (validB ps f && decide (f.roots ps = [.nonTerm S]) && decide (f.yield = w)) = true) : IsTree ps S f w := by
  simp only [Bool.and_eq_true, decide_eq_true_eq] at h
  exact ⟨validB_sound ps f h.1.1, h.1.2, h.2⟩

theorem sentence_of {ps : List Ast.Prod} {g : Grammar} {start : Ast.Prod} (he : Expressible ps)
    (h1 : Grammar.fromAst ps = .ok g) (h2 : ps.find? (fun p => p.isStart) = some start) {f : Forest} {w : List Sym}
    (hf : IsTree g.prods start.name f w) : Sentence (AstRule ps) start.name w := by
  have hok := Grammar.gok_of_fromAst he h1
  obtain ⟨h3, h4, rfl⟩ := hf
  rw [← Grammar.sentence_iff hok h1 h2 (Grammar.start_ne hok h1 h2)]
  refine ⟨Forest.yield_term f h3, ?_⟩
  rw [← h4]; exact Forest.steps f h3

/-- String literals. -/
def lits (l : List String) : List Sym := l.map fun s => .strLit s.toList

/-- A parse tree of `x b c p`. -/
def threeTree : Forest :=
  .node 1 (.leaf (.strLit ['x']) (.node 4 (.leaf (.strLit ['b']) (.node 5 (.leaf (.strLit ['c']) .nil) .nil))
    (.leaf (.strLit ['p']) .nil))) .nil

theorem three_reject : Lalr.parseIdx (lower threeAst) (tablesOf (lower threeAst)).1 (tablesOf (lower threeAst)).2.1 9
    [6, 1, 2, 3, 0] = .error .invalidToken := error_of (by decide +kernel)

/-- C28 is false in general: the tables of `threeAst` are built without a conflict,
`x b c p` is a sentence, and it is rejected. -/
theorem C28_false : ∃ ps start g depth action got states, Built (H := List Item) id ps start g depth action got states ∧
    ∃ w ws, Numbers g w ws ∧ Sentence (AstRule ps) start.name ws ∧
      ∀ fuel out, Lalr.parseIdx g action got fuel (w ++ [0]) ≠ .ok out := by
  refine ⟨_, _, _, _, _, _, _, three_built, [6, 1, 2, 3], lits ["x", "b", "c", "p"], by unfold Numbers; decide +kernel, ?_, ?_⟩
  · exact sentence_of three_expressible three_fromAst (startOf_eq (by decide +kernel)) (f := threeTree)
      (tree_of (by decide +kernel))
  · have h := three_reject
    generalize tablesOf (lower threeAst) = r at h ⊢
    intro fuel out ho
    have h1 := Lalr.parseIdx_mono fuel h (by simp)
    have h2 := Lalr.parseIdx_mono 9 ho (by simp)
    rw [Nat.add_comm] at h2
    exact absurd (h1.symm.trans h2) (by simp)

/-- A parse tree of `x c b p`, given one of `A`. -/
def loopTree (a : Forest → Forest) : Forest :=
  .node 1 (.leaf (.strLit ['x']) (.node 9 (a (.leaf (.strLit ['b']) .nil)) (.leaf (.strLit ['p']) .nil))) .nil

/-- A parse tree of `A` by `A → "c"`. -/
def cTree (rest : Forest) : Forest := .node 12 (.leaf (.strLit ['c']) .nil) rest

/-- C29 is false in general: the tables of `loopAst` are built without a conflict,
though `x c b p` has several trees. -/
theorem C29_false : ∃ ps start g depth action got states, Built (H := List Item) id ps start g depth action got states ∧
    ∃ ws f f', IsTree g.prods start.name f ws ∧ IsTree g.prods start.name f' ws ∧ f ≠ f' := by
  refine ⟨_, _, _, _, _, _, _, loop_built, lits ["x", "c", "b", "p"], loopTree cTree, loopTree (.node 11 (cTree .nil)),
    ?_, ?_, by decide +kernel⟩
  · exact tree_of (by decide +kernel)
  · exact tree_of (by decide +kernel)

theorem loop_prefix : Runs (lower loopAst) (tablesOf (lower loopAst)).1 (tablesOf (lower loopAst)).2.1 [13, 2, 1, 5, 0] 3
    ⟨[0], 0, 13, []⟩ ⟨[17, 4, 0], 2, 1, [12]⟩ := by
  obtain ⟨s1, h1⟩ : ∃ s1, s1 = (⟨[4, 0], 1, 2, []⟩ : Lalr.PState) := ⟨_, rfl⟩
  obtain ⟨s2, h2⟩ : ∃ s2, s2 = ((Lalr.step (lower loopAst) (tablesOf (lower loopAst)).1 (tablesOf (lower loopAst)).2.1
    [13, 2, 1, 5, 0] s1).toOption.getD none).getD s1 := ⟨_, rfl⟩
  refine .head (st1 := s1) (ok_of (by subst h1; decide +kernel)) (.head (st1 := s2) (ok_of (by subst h2 h1; decide +kernel))
    (.head (ok_of (by subst h2 h1; decide +kernel)) .refl))

theorem loop_forever (fuel : Nat) : Lalr.parseIdx (lower loopAst) (tablesOf (lower loopAst)).1
    (tablesOf (lower loopAst)).2.1 fuel [13, 2, 1, 5, 0] = .error .outOfFuel := by
  have ha : (tablesOf (lower loopAst)).1.tryIndex 17 1 = some (.reduce 11) := by decide +kernel
  have hp : (lower loopAst).prods[11]? = some ⟨['A'], [.nonTerm ['A']], some [], some []⟩ := by decide +kernel
  have hg : (tablesOf (lower loopAst)).2.1.tryIndex 4 ['A'] = some 17 := by decide +kernel
  have hpre := loop_prefix
  generalize tablesOf (lower loopAst) = r at ha hg hpre ⊢
  generalize lower loopAst = g at hp hpre ⊢
  have hloop : ∀ fuel out, Lalr.run g r.1 r.2.1 [13, 2, 1, 5, 0] fuel ⟨[17, 4, 0], 2, 1, out⟩ = .error .outOfFuel := by
    intro fuel
    induction fuel with
    | zero => intro out; rfl
    | succ n ih =>
      intro out
      simp only [Lalr.run, Lalr.step, ha, hp, hg, List.length_cons, List.length_nil, List.drop_succ_cons, List.drop_zero]
      exact ih _
  by_contra hne
  have := Lalr.parseIdx_mono 3 rfl hne
  unfold Lalr.parseIdx at this hne
  simp only [Lalr.startState, bind, Except.bind] at this hne
  rw [Nat.add_comm, hpre.run fuel, hloop] at this
  simp only at this
  rw [← this] at hne
  exact hne rfl

/-- C30 is false in general: on `x c b p` the parser for `loopAst` never stops. -/
theorem C30_false : ∃ ps start g depth action got states, Built (H := List Item) id ps start g depth action got states ∧
    ∃ toks, 0 ∈ toks ∧ ∀ fuel, Lalr.parseIdx g action got fuel toks = .error .outOfFuel := by
  exact ⟨_, _, _, _, _, _, _, loop_built, [13, 2, 1, 5, 0], by decide, loop_forever⟩

-- C30_exact: the hypotheses, on tokens for which the parser does not stop and on tokens for which it does.
example : (∀ fuel, Lalr.parseIdx (lower loopAst) (tablesOf (lower loopAst)).1 (tablesOf (lower loopAst)).2.1 fuel
      [13, 2, 1, 5, 0] = .error .outOfFuel) ∧
    ([13, 2, 1, 5, 0] : List Nat)[4]? = some 0 ∧
    Lalr.parseIdx (lower loopAst) (tablesOf (lower loopAst)).1 (tablesOf (lower loopAst)).2.1 99 [13, 0] = .error .invalidToken :=
  ⟨loop_forever, rfl, error_of (by decide +kernel)⟩

/-- C31: a missing transition is met in practice, with `Goto is empty`. -/
theorem C31_goto_empty : ∃ ps start g depth action got states,
    Built (H := List Item) id ps start g depth action got states ∧
    ∃ toks fuel, Lalr.parseIdx g action got fuel toks = .error .gotoEmpty :=
  ⟨_, _, _, _, _, _, _, goto_built, [7, 1, 2, 3, 0], 9, error_of (by decide +kernel)⟩

end Verif.Props
