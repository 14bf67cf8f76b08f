import Verif.Props.Parse

/-! # Which transitions a parse tree needs -/

namespace Verif.Props
open Verif Spec

section
variable {ps : List Ast.Prod} {g : Grammar} {depth : Nat} {lr states : List ItemSet} {m : List (Nat × Nat)}

/-- The items of an LALR(1) state are those of each of its canonical sets. -/
theorem sameCore_lalrOf {I : Item → Nat → Prop} (hI : Reach g I) : SameCore I (LalrOf g I) := by
  intro it
  constructor
  · rintro ⟨la, h⟩; exact ⟨la, I, hI, fun _ => Iff.rfl, h⟩
  · rintro ⟨la, J, _, hs, h⟩; exact (hs it).mpr ⟨la, h⟩

theorem advanced_same {I J : Item → Nat → Prop} (h : SameCore I J) {x : Sym} (it : Item)
    (ha : ∃ la, Advanced g I x it la) : ∃ la, Advanced g J x it la := by
  obtain ⟨la, d, p, h1, h2, h3⟩ := ha
  obtain ⟨la', h2'⟩ := (h _).mp ⟨la, h2⟩
  exact ⟨la', d, p, h1, h2', h3⟩

/-- A transition that is looked up leads to the LALR(1) state of the GOTO set. -/
theorem goes_lalrOf (hok : Grammar.GOk g) (hM : Lalr.Merged g depth lr states m) {s : ItemSet} (hs : s ∈ states)
    {I : Item → Nat → Prop} (hI : Reach g I) (hH : Has s = LalrOf g I) {x : Sym} {j : Nat}
    (hg : Goes g lr states s x j) : Reach g (Clo g (Advanced g I x)) ∧
      ∃ s', states[j]? = some s' ∧ Has s' = LalrOf g (Clo g (Advanced g I x)) := by
  have hsame := sameCore_lalrOf hI
  rw [← hH] at hsame
  have hsame' : SameCore (Has s) I := fun it => (hsame it).symm
  have hR : Reach g (Clo g (Advanced g I x)) := by
    obtain ⟨it, la, hadv⟩ := Lalr.goes_ne hM hg
    obtain ⟨la', h'⟩ := advanced_same hsame' it ⟨la, hadv⟩
    exact .goto hI ⟨it, la', h'⟩
  refine ⟨hR, ?_⟩
  obtain ⟨r, r', w1, w2, h3, hcase⟩ := hg
  have hc : ItemSet.core r' = ItemSet.core r := by
    rcases hcase with ⟨_, hc⟩ | ⟨_, rfl⟩
    · exact hc
    · rfl
  obtain ⟨s', hs', hH'⟩ := hM.lalrOf hok hR
  obtain ⟨j', hj'⟩ := List.getElem?_of_mem hs'
  have hcore : ItemSet.core s' = ItemSet.core r := by
    refine Lalr.core_eq (hM.wf s' hs') w1 fun it => ?_
    rw [hH', ← sameCore_lalrOf hR it]
    constructor
    · rintro ⟨la, hcl⟩
      obtain ⟨la', h'⟩ := Lalr.clo_core hok (advanced_same hsame)
        (fun _ _ => ItemSet.adv_termLa (hM.termLa hok hs)) hcl
      exact ⟨la', (w2 _ _).mpr h'⟩
    · rintro ⟨la, hh⟩
      exact Lalr.clo_core hok (advanced_same hsame') (fun _ _ => ItemSet.adv_termLa (ItemSet.reach_termLa hok hI)) ((w2 _ _).mp hh)
  have := hM.core_inj hj' h3 (hcore.trans hc.symm)
  subst this
  exact ⟨s', hj', hH'⟩

/-- The tables have the transitions along a forest just when those are kept. -/
theorem walk_iff_kept (he : Expressible ps) (hg : Grammar.fromAst ps = .ok g) (hM : Lalr.Merged g depth lr states m)
    {look : ItemSet → Sym → Option Nat}
    (hl : ∀ s ∈ states, ∀ x j, look s x = some j ↔ Goes g lr states s x j) :
    ∀ (f : Forest) {i : Nat} {s : ItemSet} {I : Item → Nat → Prop}, states[i]? = some s → Reach g I → Has s = LalrOf g I →
      (Lalr.Walk g states look i f ↔ KeptAlong g I f)
  | .nil, _, _, _, _, _, _ => Iff.rfl
  | .leaf t f, i, s, I, hi, hI, hH => by
    have hs := List.mem_of_getElem? hi
    simp only [Lalr.Walk, KeptAlong]
    constructor
    · rintro ⟨S, j, h1, h2, h3⟩
      rw [hi] at h1; cases h1
      have hgo := (hl s hs t j).mp h2
      obtain ⟨hR, s', hj, hH'⟩ := goes_lalrOf (Grammar.gok_of_fromAst he hg) hM hs hI hH hgo
      exact ⟨(goes_kept he hg hM hH t).mp ⟨j, hgo⟩, (walk_iff_kept he hg hM hl f hj hR hH').mp h3⟩
    · rintro ⟨hk, h3⟩
      obtain ⟨j, hgo⟩ := (goes_kept he hg hM hH t).mpr hk
      obtain ⟨hR, s', hj, hH'⟩ := goes_lalrOf (Grammar.gok_of_fromAst he hg) hM hs hI hH hgo
      exact ⟨s, j, hi, (hl s hs t j).mpr hgo, (walk_iff_kept he hg hM hl f hj hR hH').mpr h3⟩
  | .node p kids f, i, s, I, hi, hI, hH => by
    have hs := List.mem_of_getElem? hi
    simp only [Lalr.Walk, KeptAlong]
    rw [walk_iff_kept he hg hM hl kids hi hI hH]
    refine and_congr_right fun _ => ?_
    constructor
    · rintro ⟨S, j, prod, h1, hp, h2, h3⟩
      rw [hi] at h1; cases h1
      have hgo := (hl s hs _ j).mp h2
      obtain ⟨hR, s', hj, hH'⟩ := goes_lalrOf (Grammar.gok_of_fromAst he hg) hM hs hI hH hgo
      exact ⟨prod, hp, (goes_kept he hg hM hH _).mp ⟨j, hgo⟩, (walk_iff_kept he hg hM hl f hj hR hH').mp h3⟩
    · rintro ⟨prod, hp, hk, h3⟩
      obtain ⟨j, hgo⟩ := (goes_kept he hg hM hH _).mpr hk
      obtain ⟨hR, s', hj, hH'⟩ := goes_lalrOf (Grammar.gok_of_fromAst he hg) hM hs hI hH hgo
      exact ⟨s, j, prod, hi, hp, (hl s hs _ j).mpr hgo, (walk_iff_kept he hg hM hl f hj hR hH').mpr h3⟩

end

section
variable {H : Type} [DecidableEq H] {hash : List Item → H} {ps : List Ast.Prod} {start : Ast.Prod}
  {g : Grammar} {depth : Nat} {action : Table Nat Action} {got : Table Str Nat} {states : List ItemSet}

/-- State 0 is the LALR(1) state of the initial set. -/
theorem init_lalrOf (hok : Grammar.GOk g) {lr : List ItemSet} {m : List (Nat × Nat)} (hM : Lalr.Merged g depth lr states m) :
    ∃ s0, states[0]? = some s0 ∧ Has s0 = LalrOf g (Clo g fun it la => it = (0, 0) ∧ la = 0) := by
  obtain ⟨s, hs, hH⟩ := hM.lalrOf hok (Reach.init (g := g))
  obtain ⟨i, hi⟩ := List.getElem?_of_mem hs
  have h0 : Has s (0, 0) 0 := by
    rw [hH]; exact ⟨_, .init, fun _ => Iff.rfl, .base ⟨rfl, rfl⟩⟩
  have := hM.zero hok hi h0
  subst this
  exact ⟨s, hi, hH⟩

/-- The tables of the code have the transitions along a tree just when those are kept. -/
theorem Built.walk (hB : Built hash ps start g depth action got states) (hc : NoCollisions hash g depth) :
    ∃ look, Lalr.TabOk g states action got look ∧ ∀ f, Lalr.Walk g states look 0 f ↔ KeptTree g f := by
  obtain ⟨lr, m, _, _, hM, h4, hT⟩ := Lalr.tabOk hB.ok hc hB.tables
  obtain ⟨s0, h0, hH⟩ := init_lalrOf hB.ok hM
  refine ⟨_, hT, fun f => walk_iff_kept hB.expr hB.ast hM (fun s hs x j => ?_) f h0 .init hH⟩
  exact iff_of_eq (congrFun (congrFun (hM.lookup_goes hB.ok h4 hs) x) j)

theorem Built.number (hB : Built hash ps start g depth action got states) {f : Forest} {ws : List Sym}
    (hf : IsTree g.prods start.name f ws) : ∃ w : List Nat, Numbers g w ws := by
  obtain ⟨h1, h2, rfl⟩ := hf
  have hok := hB.ok
  have hmem : ∀ t ∈ f.yield, ∃ k : Nat, g.tokens[k]? = some t := by
    intro t ht
    have hst := Forest.steps f h1
    rw [h2] at hst
    have h0 : ∀ x ∈ [Sym.nonTerm start.name], x ∈ g.tokens := by
      intro x hx
      simp only [List.mem_singleton] at hx
      subst hx
      exact (hok.tokMem _).mpr (.inr ⟨_, List.mem_of_getElem? (Grammar.start_prod hB.ast hB.first), by simp⟩)
    exact List.getElem?_of_mem (Lalr.steps_tokens hok h0 hst t ht)
  generalize f.yield = l at hmem
  induction l with
  | nil => exact ⟨[], rfl⟩
  | cons t l ih =>
    obtain ⟨w, hw⟩ := ih fun t ht => hmem t (by simp [ht])
    obtain ⟨k, hk⟩ := hmem t (by simp)
    exact ⟨k :: w, by simp only [Numbers, List.map_cons, hk] at hw ⊢; rw [hw]⟩

theorem Numbers.inj {w : List Nat} {ws ws' : List Sym} (h : Numbers g w ws) (h' : Numbers g w ws') : ws = ws' :=
  List.map_injective_iff.mpr (fun _ _ => Option.some.inj) (h.symm.trans h')

/-- The numbers of terminals are not that of the end marker. -/
theorem Numbers.ne_zero (hok : Grammar.GOk g) {w : List Nat} {ws : List Sym} (h : Numbers g w ws) (ht : ∀ t ∈ ws, IsTerm t) :
    0 ∉ w := by
  intro hz
  have : g.tokens[0]? ∈ ws.map some := by
    rw [← h]; exact List.mem_map_of_mem (f := fun k => g.tokens[k]?) hz
  rw [hok.tok0] at this
  simp only [List.mem_map, Option.some.injEq, exists_eq_right] at this
  exact ht _ this

/-- What is accepted has a tree that follows transitions of the tables. -/
theorem Built.accepted (hB : Built hash ps start g depth action got states) {look : ItemSet → Sym → Option Nat}
    (hT : Lalr.TabSound g states action got look) {fuel : Nat} {w rest out : List Nat} (h0 : 0 ∉ w)
    (hp : Lalr.parseIdx g action got fuel (w ++ 0 :: rest) = .ok out) :
    ∃ ws f, Numbers g w ws ∧ IsTree g.prods start.name f ws ∧ f.post = out ∧ Lalr.Walk g states look 0 f := by
  have hok := hB.ok
  unfold Lalr.parseIdx at hp
  cases hs : Lalr.startState (w ++ 0 :: rest) with
  | error e => simp [hs, bind, Except.bind] at hp
  | ok st =>
    cases hr : Lalr.run g action got (w ++ 0 :: rest) fuel st with
    | error e => simp [hs, hr, bind, Except.bind] at hp
    | ok st' =>
      simp only [hs, hr, bind, Except.bind, pure, Except.pure, Except.ok.injEq] at hp
      obtain ⟨f, w', hI, hW, ha, S, hS, hroots⟩ :=
        Lalr.run_walk hok hT fuel (Lalr.Inv.start (look := look) (g := g) (lalr := states) hs) trivial st' hr
      rw [Grammar.start_prod hB.ast hB.first] at hS
      cases hS
      obtain ⟨rest', hrest⟩ := hI.at_eof hok ha
      have h0' : 0 ∉ w' := Numbers.ne_zero hok (ws := f.yield) hI.yield (Forest.yield_term f hI.valid)
      have hww : w = w' := by
        have := congrArg (List.takeWhile (fun k => k != 0)) hrest
        rwa [takeWhile_zero h0, takeWhile_zero h0'] at this
      subst hww
      exact ⟨f.yield, f, hI.yield, ⟨hI.valid, hroots, rfl⟩, hI.post.trans hp, hW⟩

/-- Symbols that derive strings of terminals are the roots of a forest. -/
theorem forest_of : ∀ α : List Sym, (∀ x ∈ α, IsTerm x ∨ ∃ A v, x = .nonTerm A ∧ (∀ t ∈ v, IsTerm t) ∧
    Steps (Rule g.prods) [.nonTerm A] v) → ∃ f : Forest, f.Valid g.prods ∧ f.roots g.prods = α
  | [], _ => ⟨.nil, trivial, rfl⟩
  | x :: α, h => by
    obtain ⟨f, h1, h2⟩ := forest_of α fun x hx => h x (List.mem_cons_of_mem _ hx)
    rcases h x List.mem_cons_self with ht | ⟨A, v, rfl, hv, hst⟩
    · exact ⟨.leaf x f, ⟨ht, h1⟩, by simp [Forest.roots, h2]⟩
    · obtain ⟨f0, k1, k2, _⟩ := Forest.of_steps hst hv
      exact ⟨f0.append f, (Forest.valid_append ..).mpr ⟨k1, h1⟩, by rw [Forest.roots_append, k2, h2]; rfl⟩

theorem Built.productive (hB : Built hash ps start g depth action got states) (hP : Productive (AstRule ps) start.name)
    {p : Production} (hp : p ∈ g.prods) {x : Sym} (hx : x ∈ p.inputs) :
    IsTerm x ∨ ∃ A v, x = .nonTerm A ∧ (∀ t ∈ v, IsTerm t) ∧ Steps (Rule g.prods) [.nonTerm A] v := by
  have hok := hB.ok
  by_cases hnt : ∃ A, x = .nonTerm A
  · obtain ⟨A, rfl⟩ := hnt
    right
    have hAa : A ≠ g.augName := by rintro rfl; exact hok.fresh p hp hx
    have : ∃ v, Sentence (AstRule ps) A v := by
      rcases (Grammar.rule_iff hB.ast hB.first).mp ⟨p, hp, rfl, rfl⟩ with ⟨_, h2⟩ | h2
      · rw [h2] at hx
        simp only [List.mem_singleton, Sym.nonTerm.injEq] at hx
        rw [hx]; exact hP.1
      · exact hP.2 _ _ A h2 hx
    obtain ⟨v, hv⟩ := this
    rw [← Grammar.sentence_iff hok hB.ast hB.first hAa] at hv
    exact ⟨A, v, rfl, hv.1, hv.2⟩
  · exact .inl (hok.isTerm hp hx fun A hA => hnt ⟨A, hA⟩)

/-- A forest for the rest of an item of a canonical set is part of a parse tree, where it starts from that set. -/
theorem Built.context (hB : Built hash ps start g depth action got states) (hP : Productive (AstRule ps) start.name)
    {I : Item → Nat → Prop} (hI : Reach g I) : ∀ it la, I it la → ∀ prod, g.prods[it.1]? = some prod →
    ∀ k : Forest, k.Valid g.prods → k.roots g.prods = prod.inputs.drop it.2 →
    ∃ F ws, IsTree g.prods start.name F ws ∧ (KeptTree g F → KeptAlong g I k) := by
  have hok := hB.ok
  have hrest : ∀ p ∈ g.prods, ∀ d, ∃ f : Forest, f.Valid g.prods ∧ f.roots g.prods = p.inputs.drop d := fun p hp d =>
    forest_of _ fun x hx => hB.productive hP hp (List.mem_of_mem_drop hx)
  -- the closure rule
  have hclo : ∀ {J : Item → Nat → Prop} {I : Item → Nat → Prop},
      (∀ it la, J it la → ∀ prod, g.prods[it.1]? = some prod → ∀ k : Forest, k.Valid g.prods →
        k.roots g.prods = prod.inputs.drop it.2 → ∃ F ws, IsTree g.prods start.name F ws ∧ (KeptTree g F → KeptAlong g I k)) →
      ∀ it la, Clo g J it la → ∀ prod, g.prods[it.1]? = some prod → ∀ k : Forest, k.Valid g.prods →
        k.roots g.prods = prod.inputs.drop it.2 → ∃ F ws, IsTree g.prods start.name F ws ∧ (KeptTree g F → KeptAlong g I k) := by
    intro J I hbase it la hc
    induction hc with
    | base hj => exact hbase _ _ hj
    | @step it la q b _ hask ih =>
      intro prod hprod k hk hkr
      obtain ⟨p, B, p', t, tb, h1, h2, h3, h4, _⟩ := hask
      simp only at hprod hkr
      rw [h3] at hprod; cases hprod
      obtain ⟨r, hr1, hr2⟩ := hrest p (List.mem_of_getElem? h1) (it.2 + 1)
      obtain ⟨F, ws, hF, hkept⟩ := ih p h1 (.node q k r) ⟨⟨_, h3, by simpa using hkr.symm⟩, hk, hr1⟩ (by
        obtain ⟨hlt, he⟩ := List.getElem?_eq_some_iff.mp h2
        rw [List.drop_eq_getElem_cons hlt, he, ← hr2, ← h4]
        simp [Forest.roots, h3])
      exact ⟨F, ws, hF, fun hK => (hkept hK).1⟩
  induction hI with
  | init =>
    refine hclo ?_
    rintro it la ⟨rfl, rfl⟩ prod hprod k hk hkr
    have hS := Grammar.start_prod hB.ast hB.first
    simp only at hprod hkr
    rw [hS] at hprod; cases hprod
    exact ⟨k, k.yield, ⟨hk, by simpa using hkr, rfl⟩, id⟩
  | @goto I X hI hne ih =>
    refine hclo ?_
    rintro it la ⟨d, p, hd, hI', hp, hi⟩ prod hprod k hk hkr
    rw [hp] at hprod; cases hprod
    obtain ⟨hlt, he⟩ := List.getElem?_eq_some_iff.mp hi
    rcases hB.productive hP (List.mem_of_getElem? hp) (List.mem_of_getElem? hi) with ht | ⟨A, v, rfl, hv, hst⟩
    · obtain ⟨F, ws, hF, hkept⟩ := ih _ _ hI' p hp (.leaf X k) ⟨ht, hk⟩ (by
        simp only
        rw [List.drop_eq_getElem_cons hlt, he, ← hd, ← hkr]; rfl)
      exact ⟨F, ws, hF, fun hK => (hkept hK).2⟩
    · obtain ⟨f0, k1, k2, _⟩ := Forest.of_steps hst hv
      cases f0 with
      | nil => simp [Forest.roots] at k2
      | leaf t f1 =>
        simp only [Forest.roots, List.cons.injEq] at k2
        have := k1.1
        rw [k2.1] at this
        exact this.elim
      | node q kids f1 =>
        obtain ⟨⟨prodq, hq, hqi⟩, hvk, _⟩ := k1
        simp only [Forest.roots, hq, Option.map_some, Option.getD_some, List.cons.injEq, Sym.nonTerm.injEq] at k2
        obtain ⟨F, ws, hF, hkept⟩ := ih _ _ hI' p hp (.node q kids k) ⟨⟨prodq, hq, hqi⟩, hvk, hk⟩ (by
          simp only
          rw [List.drop_eq_getElem_cons hlt, he, ← hd, ← hkr, ← k2.1]
          simp [Forest.roots, hq])
        refine ⟨F, ws, hF, fun hK => ?_⟩
        obtain ⟨_, prod', hq', _, h⟩ := hkept hK
        rw [hq] at hq'; cases hq'
        rwa [k2.1] at h

end

end Verif.Props
