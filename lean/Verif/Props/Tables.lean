import Verif.Proofs.TablesMore
import Verif.Props.Samples

/-! # Properties of the LALR(1) tables (C23, C24, C25, C26, C45) -/

namespace Verif.Props
open Verif Spec

section
variable {H : Type} [DecidableEq H] {hash : List Item → H}

/-! ## C23 -/

/-- C23.  Merging never panics, and returns one state per LR(0) core in order of
first appearance, with the union of the lookaheads; the map sends each set to the
state with its core. -/
theorem C23_merge_exact {sets : List ItemSet} (hw : ∀ s ∈ sets, WFSet s) (hh : CollisionFree hash sets) :
    ∃ states m, Lalr.mergeCores hash sets = .ok (states, m) ∧
      states.map coreOf = firsts (sets.map coreOf) ∧ (∀ s ∈ states, WFSet s) ∧
      (∀ s ∈ states, ∀ it la, Has s it la ↔ ∃ t ∈ sets, coreOf t = coreOf s ∧ Has t it la) ∧
      ∀ i k, mget i m = some k ↔
        ∃ s r, sets[i]? = some s ∧ states[k]? = some r ∧ coreOf r = coreOf s := by
  obtain ⟨states, m, h1, h2, h3, h4, _, h6⟩ := Lalr.mergeCores_spec hash hw hh
  exact ⟨states, m, h1, h2, h3, h4, h6⟩

/-- The ten LR(1) sets of `ccG`. -/
def ccSets : List ItemSet := (ItemSet.items ccG 6).toOption.getD []

theorem cc_items : ItemSet.items ccG 6 = .ok ccSets := by
  obtain ⟨c, hc⟩ := (C22_items_terminates cc_expressible rfl cc_fromAst).2.mpr cc_buildable
  have : ItemSet.items ccG 6 = .ok c := hc
  rw [ccSets, this]; rfl

example : (∀ s ∈ ccSets, WFSet s) ∧ CollisionFree id ccSets ∧
    (Lalr.mergeCores id ccSets).toOption.map (fun r => (r.1.length, r.2)) =
      some (7, [(0, 0), (1, 1), (2, 2), (3, 3), (4, 4), (5, 5), (6, 6), (7, 3), (8, 4), (9, 5)]) := by
  refine ⟨fun s hs => ?_, collisionFree_id _, by decide +kernel⟩
  exact ((C22_items_exact cc_expressible cc_fromAst 6 cc_items).2.1 s hs).1

/-! ## C45, the table half -/

/-- C45.  Merging is the same for every collision-free hash, hence so is the whole
table construction. -/
theorem C45_tables {ps : List Ast.Prod} (he : Expressible ps) {g : Grammar}
    (hg : Grammar.fromAst ps = .ok g) (depth : Nat) {H' : Type} [DecidableEq H'] {hash' : List Item → H'}
    (hh : ∀ lr, ItemSet.items g depth = .ok lr → CollisionFree hash lr)
    (hh' : ∀ lr, ItemSet.items g depth = .ok lr → CollisionFree hash' lr) :
    Lalr.makeTables hash g depth = Lalr.makeTables hash' g depth := by
  unfold Lalr.makeTables
  cases hlr : ItemSet.items g depth with
  | error e => rfl
  | ok lr =>
    have hw := (C22_items_exact he hg depth hlr).2.1
    obtain ⟨s1, m1, e1, c1, w1, u1, o1, k1⟩ :=
      Lalr.mergeCores_spec hash (fun s hs => (hw s hs).1) (hh lr hlr)
    obtain ⟨s2, m2, e2, c2, w2, u2, o2, k2⟩ :=
      Lalr.mergeCores_spec hash' (fun s hs => (hw s hs).1) (hh' lr hlr)
    have hss : s1 = s2 := by
      have hlen : s1.length = s2.length := by simpa using congrArg List.length (c1.trans c2.symm)
      apply List.ext_getElem hlen
      intro i h1 h2
      have hc : ItemSet.core s1[i] = ItemSet.core s2[i] := by
        have := congrArg (·[i]?) (c1.trans c2.symm)
        simpa [h1, h2] using this
      refine ItemSet.wf_ext (w1 _ (List.getElem_mem _)) (w2 _ (List.getElem_mem _)) fun it la => ?_
      rw [u1 _ (List.getElem_mem _), u2 _ (List.getElem_mem _), hc]
    subst hss
    have hmm : m1 = m2 := by
      refine msorted_ext o1 o2 fun i => ?_
      refine Option.ext fun k => ?_
      exact (k1 i k).trans (k2 i k).symm
    subst hmm
    simp only [e1, e2, bind, Except.bind]

example : (∀ lr, ItemSet.items ccG 6 = .ok lr → CollisionFree id lr) ∧
    (∀ lr, ItemSet.items ccG 6 = .ok lr → CollisionFree (fun c : List Item => c.map fun it => 7 * it.1 + it.2) lr) := by
  refine ⟨fun lr _ => collisionFree_id lr, fun lr hlr => ?_⟩
  rw [cc_items] at hlr
  cases hlr
  have : ∀ s ∈ ccSets, ∀ t ∈ ccSets, (coreOf s).map (fun it : Item => 7 * it.1 + it.2) =
    (coreOf t).map (fun it : Item => 7 * it.1 + it.2) → coreOf s = coreOf t := by decide +kernel
  exact this

/-! ## C24 -/

/-- C24.  After a successful construction the entries of both tables are exactly
the ones called for, each by a single item. -/
theorem C24_tables_exact {ps : List Ast.Prod} (he : Expressible ps) {g : Grammar}
    (hg : Grammar.fromAst ps = .ok g) {depth : Nat}
    (hh : ∀ lr, ItemSet.items g depth = .ok lr → CollisionFree hash lr)
    {action : Table Nat Action} {got : Table Str Nat} {states : List ItemSet}
    (ht : Lalr.makeTables hash g depth = .ok (action, got, states)) :
    ∃ lr m, ItemSet.items g depth = .ok lr ∧ Lalr.mergeCores hash lr = .ok (states, m) ∧
      (∀ i k a, action.tryIndex i k = some a ↔ ∃ s it, states[i]? = some s ∧ Calls g (Goes g lr states s) s it k a) ∧
      (∀ s ∈ states, ∀ it it' k a a', Calls g (Goes g lr states s) s it k a →
        Calls g (Goes g lr states s) s it' k a' → it = it' ∧ a = a') ∧
      ∀ i A j, got.tryIndex i A = some j ↔ ∃ s, states[i]? = some s ∧ Goes g lr states s (.nonTerm A) j := by
  have hok := Grammar.gok_of_fromAst he hg
  obtain ⟨lr, m, h1, h2, hM, h4, hT⟩ := Lalr.tabOk hok hh ht
  have hlk : ∀ {s}, s ∈ states → _ := fun hs => hM.lookup_goes hok h4 hs
  refine ⟨lr, m, h1, h2, fun i k a => ?_, fun s hs it it' k a a' hc hc' => ?_, fun i A j => ?_⟩
  · rw [hT.act]
    constructor
    · rintro ⟨s, it, hs, hc⟩
      rw [hlk (List.mem_of_getElem? hs)] at hc
      exact ⟨s, it, hs, hc⟩
    · rintro ⟨s, it, hs, hc⟩
      rw [← hlk (List.mem_of_getElem? hs)] at hc
      exact ⟨s, it, hs, hc⟩
  · rw [← hlk hs] at hc hc'
    exact hT.uniq s hs it it' k a a' hc hc'
  · rw [hT.go]
    constructor
    · rintro ⟨s, hs, hc⟩
      have := congrFun (congrFun (hlk (List.mem_of_getElem? hs)) (.nonTerm A)) j
      exact ⟨s, hs, this ▸ hc⟩
    · rintro ⟨s, hs, hc⟩
      have := congrFun (congrFun (hlk (List.mem_of_getElem? hs)) (.nonTerm A)) j
      exact ⟨s, hs, this.symm ▸ hc⟩

/-- C24.  Construction fails only with a conflict, and does exactly when two items
of a state call for the same cell. -/
theorem C24_conflict_iff {ps : List Ast.Prod} (he : Expressible ps) {start : Ast.Prod}
    (hst : ps.find? (fun p => p.isStart) = some start) {g : Grammar} (hg : Grammar.fromAst ps = .ok g)
    (hf : Buildable (AstRule ps) start.name)
    (hh : ∀ lr, ItemSet.items g (Lalr.depthOf g) = .ok lr → CollisionFree hash lr) :
    ∃ lr m states, ItemSet.items g (Lalr.depthOf g) = .ok lr ∧ Lalr.mergeCores hash lr = .ok (states, m) ∧
      (Lalr.makeTables hash g (Lalr.depthOf g) = .error .conflict ∨
        ∃ a t, Lalr.makeTables hash g (Lalr.depthOf g) = .ok (a, t, states)) ∧
      (Lalr.makeTables hash g (Lalr.depthOf g) = .error .conflict ↔
        ∃ s ∈ states, ∃ it it' k a a', it ≠ it' ∧ Calls g (Goes g lr states s) s it k a ∧
          Calls g (Goes g lr states s) s it' k a') := by
  have hok := Grammar.gok_of_fromAst he hg
  obtain ⟨lr, hlr⟩ := (C22_items_terminates he hst hg).2.mpr hf
  have hw := (C22_items_exact he hg _ hlr).2.1
  obtain ⟨states, m, hm, _⟩ := Lalr.mergeCores_spec hash (fun s hs => (hw s hs).1) (hh lr hlr)
  have hM := Lalr.merged_of hok hlr (hh lr hlr) hm
  refine ⟨lr, m, states, hlr, hm, ?_⟩
  rcases Lalr.makeLalrTables_cases hM hok (fun s hs x => hM.goto_build hok ((Grammar.buildable_iff he hst hg).mpr hf) hs x) with
    ⟨h1, h2⟩ | ⟨⟨a, t, h1⟩, h2⟩
  · have : Lalr.makeTables hash g (Lalr.depthOf g) = .error .conflict := by
      simp only [Lalr.makeTables, hlr, hm, h1, bind, Except.bind]
    exact ⟨.inl this, fun _ => h2, fun _ => this⟩
  · have : Lalr.makeTables hash g (Lalr.depthOf g) = .ok (a, t, states) := by
      simp only [Lalr.makeTables, hlr, hm, h1, bind, Except.bind]; rfl
    refine ⟨.inr ⟨a, t, this⟩, fun hc => ?_, ?_⟩
    · rw [this] at hc; cases hc
    · rintro ⟨s, hs, it, it', k, b, b', hne, hc, hc'⟩
      exact absurd (h2 s hs it it' k b b' hc hc') hne

/-- A transition is looked up in the tables just when it is kept. -/
theorem goes_kept {ps : List Ast.Prod} (he : Expressible ps) {g : Grammar} (hg : Grammar.fromAst ps = .ok g)
    {depth : Nat} {lr states : List ItemSet} {m : List (Nat × Nat)} (hM : Lalr.Merged g depth lr states m)
    {s : ItemSet} {I : Item → Nat → Prop} (hH : Has s = LalrOf g I) (x : Sym) :
    (∃ j, Goes g lr states s x j) ↔ Kept g I x := by
  have hok := Grammar.gok_of_fromAst he hg
  obtain ⟨i0, hi0, hres⟩ := hM.res
  unfold Kept
  rw [← hH]
  constructor
  · rintro ⟨j, r, r', w1, w2, h3, hcase⟩
    have hr : Has r = Clo g (Advanced g (Has s) x) := by
      funext it la; exact propext (w2 it la)
    rw [← hr]
    rcases hcase with ⟨hin, _⟩ | ⟨_, rfl⟩
    · exact .inl (hM.lrreach r hin)
    · exact .inr (hM.lalr_reach hok (List.mem_of_getElem? h3))
  · intro this
    have hlr : ∀ r ∈ lr, ∃ (j : Nat) (r' : ItemSet), states[j]? = some r' ∧ ItemSet.core r' = ItemSet.core r := by
      intro r hr
      have : ItemSet.core r ∈ states.map ItemSet.core := by
        rw [hM.cores]; exact mem_firsts.mpr (List.mem_map_of_mem hr)
      obtain ⟨r', hr', he⟩ := List.mem_map.mp this
      obtain ⟨j, hj⟩ := List.getElem?_of_mem hr'
      exact ⟨j, r', hj, he⟩
    rcases this with hr | ⟨J, hJ, hr⟩
    · obtain ⟨r, hrm, hrH⟩ := hres.complete hok hi0 hr
      obtain ⟨j, r', hj, hc⟩ := hlr r hrm
      exact ⟨j, r, r', hM.lrwf r hrm, fun it la => by rw [hrH], hj, .inl ⟨hrm, hc⟩⟩
    · obtain ⟨r, hrm, hrH⟩ := hM.lalrOf hok hJ
      have hG : ∀ it la, Has r it la ↔ Clo g (Advanced g (Has s) x) it la := fun it la => by rw [hrH, hr]
      by_cases hin : r ∈ lr
      · obtain ⟨j, r', hj, hc⟩ := hlr r hin
        exact ⟨j, r, r', hM.wf r hrm, hG, hj, .inl ⟨hin, hc⟩⟩
      · obtain ⟨j, hj⟩ := List.getElem?_of_mem hrm
        exact ⟨j, r, r, hM.wf r hrm, hG, hj, .inr ⟨hin, rfl⟩⟩

/-- The entries called for and the entries claimed are the same. -/
theorem calls_claims {ps : List Ast.Prod} (he : Expressible ps) {g : Grammar} (hg : Grammar.fromAst ps = .ok g)
    {depth : Nat} {lr states : List ItemSet} {m : List (Nat × Nat)} (hM : Lalr.Merged g depth lr states m)
    {s : ItemSet} (hw : WFSet s) {I : Item → Nat → Prop} (hH : Has s = LalrOf g I) {it : Item} {k : Nat} :
    (∃ a, Calls g (Goes g lr states s) s it k a) ↔ Claims g I it k := by
  have hany : ∀ {it las}, (it, las) ∈ s → ∃ la, Has s it la := fun {it las} hin => by
    obtain ⟨hn, _⟩ := hw.las it las hin
    obtain ⟨la, hla⟩ := List.exists_mem_of_ne_nil _ hn
    exact ⟨la, las, hin, hla⟩
  unfold Claims
  rw [← hH]
  constructor
  · rintro ⟨a, hc⟩
    cases hc with
    | shift h1 h2 h3 h4 h5 h6 =>
      obtain ⟨la, hla⟩ := hany h1
      exact ⟨_, h2, .inr ⟨la, _, hla, h3, h4, h5, (goes_kept he hg hM hH _).mp ⟨_, h6⟩⟩⟩
    | reduce h1 h2 h3 h4 => exact ⟨_, h2, .inl ⟨h1, h3⟩⟩
    | accept h1 h2 h3 h4 => exact ⟨_, by rw [h2]; exact h3, .inl ⟨h1, h4⟩⟩
  · rintro ⟨p, hp, ⟨h1, h2⟩ | ⟨la, t, ⟨las, hm, _⟩, h2, h3, h4, h5⟩⟩
    · by_cases hz : k = 0 ∧ it.1 = 0
      · obtain ⟨rfl, h0⟩ := hz
        exact ⟨_, .accept h1 h0 (by rw [← h0]; exact hp) h2⟩
      · exact ⟨_, .reduce h1 hp h2 hz⟩
    · obtain ⟨j, hj⟩ := (goes_kept he hg hM hH t).mpr h5
      exact ⟨_, .shift hm hp h2 h3 h4 hj⟩

/-- C24.  Construction reports a conflict exactly if two items of an LALR(1) state claim one entry, and
succeeds exactly if not. -/
theorem C24_clash {ps : List Ast.Prod} (he : Expressible ps) {start : Ast.Prod}
    (hst : ps.find? (fun p => p.isStart) = some start) {g : Grammar} (hg : Grammar.fromAst ps = .ok g)
    (hf : Buildable (AstRule ps) start.name)
    (hh : ∀ lr, ItemSet.items g (Lalr.depthOf g) = .ok lr → CollisionFree hash lr) :
    (Lalr.makeTables hash g (Lalr.depthOf g) = .error .conflict ↔ Clash g) ∧
    ((∃ r, Lalr.makeTables hash g (Lalr.depthOf g) = .ok r) ↔ ¬ Clash g) := by
  have hok := Grammar.gok_of_fromAst he hg
  obtain ⟨lr, m, states, hlr, hm, hcase, hiff⟩ := C24_conflict_iff he hst hg hf hh
  have hM := Lalr.merged_of hok hlr (hh lr hlr) hm
  have key : Lalr.makeTables hash g (Lalr.depthOf g) = .error .conflict ↔ Clash g := by
    rw [hiff]
    constructor
    · rintro ⟨s, hs, it, it', k, a, a', hne, h1, h2⟩
      obtain ⟨I, hI, hH⟩ := hM.lalr_reach hok hs
      exact ⟨I, it, it', k, hI, hne, (calls_claims he hg hM (hM.wf s hs) hH).mp ⟨_, h1⟩,
        (calls_claims he hg hM (hM.wf s hs) hH).mp ⟨_, h2⟩⟩
    · rintro ⟨I, it, it', k, hI, hne, h1, h2⟩
      obtain ⟨s, hs, hH⟩ := hM.lalrOf hok hI
      obtain ⟨a, h1⟩ := (calls_claims he hg hM (hM.wf s hs) hH).mpr h1
      obtain ⟨a', h2⟩ := (calls_claims he hg hM (hM.wf s hs) hH).mpr h2
      exact ⟨s, hs, it, it', k, a, a', hne, h1, h2⟩
  refine ⟨key, ?_⟩
  rw [← key]
  rcases hcase with h | ⟨a, t, h⟩ <;> simp [h]

/-- The tables of `ccG`. -/
def ccTables : Table Nat Action × Table Str Nat × List ItemSet :=
  (Lalr.makeTables id ccG 6).toOption.getD ([], [], [])

theorem cc_tables : Lalr.makeTables id ccG 6 = .ok ccTables := ok_of_isSome (by decide +kernel)

example : (∀ lr, ItemSet.items ccG 6 = .ok lr → CollisionFree id lr) ∧
    Lalr.makeTables id ccG 6 = .ok ccTables ∧ ccTables.1.tryIndex 0 1 = some (.shift 4) ∧
    ccTables.1.tryIndex 3 0 = some (.reduce 3) ∧ ccTables.1.tryIndex 1 0 = some .accept ∧
    ccTables.2.1.tryIndex 0 "C".toList = some 2 :=
  ⟨fun lr _ => collisionFree_id lr, cc_tables, by decide +kernel, by decide +kernel, by decide +kernel,
    by decide +kernel⟩

/-! ## C25 -/

/-- C25, restricted to grammars without two items of one state that have the same
terminal after the dot, and on which FIRST meets no left recursion.  Missing: LALR(1) grammars
with such items, or with a left-recursive nonterminal behind another one; on
those the code panics (`C25_false`, `C25_false_first`). -/
theorem C25_lalr1_accepted_partial {ps : List Ast.Prod} (he : Expressible ps) {start : Ast.Prod}
    (hst : ps.find? (fun p => p.isStart) = some start) {g : Grammar} (hg : Grammar.fromAst ps = .ok g)
    (hf : Buildable (AstRule ps) start.name)
    (hh : ∀ lr, ItemSet.items g (Lalr.depthOf g) = .ok lr → CollisionFree hash lr)
    (hl : IsLalr1 g) (hs : ∀ I, Reach g I → ¬ SharedTerminal g (LalrOf g I))
    {rx : Str → Option Hir} {ord : Nfa.Order} (hx : ∃ L, g.lexer rx ord = .ok L) :
    ∃ l, Lalr.new hash rx ord g = .ok l := by
  have hok := Grammar.gok_of_fromAst he hg
  obtain ⟨lr, m, states, hlr, hm, hcase, hiff⟩ := C24_conflict_iff he hst hg hf hh
  have hM := Lalr.merged_of hok hlr (hh lr hlr) hm
  obtain ⟨L, hL⟩ := hx
  rcases hcase with hc | ⟨a, t, hc⟩
  · exfalso
    obtain ⟨s, hsm, it, it', k, b, b', hne, hb, hb'⟩ := hiff.mp hc
    obtain ⟨I, hI, hH⟩ := hM.lalr_reach hok hsm
    have hno := hl I hI
    have hsh := hs I hI
    rw [← hH] at hno hsh
    have hany : ∀ {it las}, (it, las) ∈ s → ∃ la, Has s it la := fun {it las} hin => by
      obtain ⟨hn, _⟩ := (hM.wf s hsm).las it las hin
      obtain ⟨la, hla⟩ := List.exists_mem_of_ne_nil _ hn
      exact ⟨la, las, hin, hla⟩
    cases hb with
    | shift h1 h2 h3 h4 h5 h6 =>
      obtain ⟨la1, hh1⟩ := hany h1
      cases hb' with
      | shift k1 k2 k3 k4 k5 k6 =>
        obtain ⟨la2, hh2⟩ := hany k1
        rw [h5] at k5; cases k5
        exact hsh ⟨_, _, _, _, _, _, _, hne, hh1, hh2, h2, k2, h3, k3, h4⟩
      | reduce k1 k2 k3 k4 =>
        exact hno ⟨_, _, _, _, _, k1, k2, k3, h2, .inr ⟨_, _, hh1, h3, h5⟩⟩
      | accept k1 k2 k3 k4 =>
        exact hno ⟨_, _, _, _, _, k1, by rw [k2]; exact k3, k4, h2, .inr ⟨_, _, hh1, h3, h5⟩⟩
    | reduce h1 h2 h3 h4 =>
      cases hb' with
      | shift k1 k2 k3 k4 k5 k6 =>
        obtain ⟨la2, hh2⟩ := hany k1
        exact hno ⟨_, _, _, _, _, h1, h2, h3, k2, .inr ⟨_, _, hh2, k3, k5⟩⟩
      | reduce k1 k2 k3 k4 => exact hno ⟨_, _, _, _, _, h1, h2, h3, k2, .inl ⟨hne, k1, k3⟩⟩
      | accept k1 k2 k3 k4 => exact hno ⟨_, _, _, _, _, h1, h2, h3, by rw [k2]; exact k3, .inl ⟨hne, k1, k4⟩⟩
    | accept h1 h2 h3 h4 =>
      cases hb' with
      | shift k1 k2 k3 k4 k5 k6 =>
        obtain ⟨la2, hh2⟩ := hany k1
        exact hno ⟨_, _, _, _, _, h1, by rw [h2]; exact h3, h4, k2, .inr ⟨_, _, hh2, k3, k5⟩⟩
      | reduce k1 k2 k3 k4 => exact hno ⟨_, _, _, _, _, h1, by rw [h2]; exact h3, h4, k2, .inl ⟨hne, k1, k3⟩⟩
      | accept k1 k2 k3 k4 =>
        exact hno ⟨_, _, _, _, _, h1, by rw [h2]; exact h3, h4, by rw [k2]; exact k3, .inl ⟨hne, k1, k4⟩⟩
  · refine ⟨{ grammar := g, lexer := L, action := a, goto := t, states := states }, ?_⟩
    simp only [Lalr.new, hL, hc, bind, Except.bind]
    rfl

/-- Executable check for conflicts of a state. -/
def conflictFreeB (g : Grammar) (s : ItemSet) : Bool :=
  s.all fun e => s.all fun e' => e.2.all fun la =>
    !((g.prods[e.1.1]?.map (·.inputs[e.1.2]?)) == some none) ||
    (!(e.1 != e'.1 && e'.2.contains la && (g.prods[e'.1.1]?.map (·.inputs[e'.1.2]?)) == some none) &&
     !((g.prods[e'.1.1]?.bind (·.inputs[e'.1.2]?)).isSome &&
       (g.prods[e'.1.1]?.bind (·.inputs[e'.1.2]?)) == g.tokens[la]?))

theorem conflictFreeB_sound {g : Grammar} {s : ItemSet} (h : conflictFreeB g s = true) : ¬ Conflict g (Has s) := by
  rintro ⟨it, la, p, it', p', ⟨las, hm, hla⟩, h2, h3, h4, h5⟩
  simp only [conflictFreeB, List.all_eq_true] at h
  rcases h5 with ⟨hne, ⟨las', hm', hla'⟩, h6⟩ | ⟨la', t, ⟨las', hm', hla'⟩, h6, h7⟩
  · have := h _ hm _ hm' la hla
    simp [h2, h3, h4, h6, hne, hla'] at this
  · have := h _ hm _ hm' la hla
    simp [h2, h3, h4, h6, h7] at this

/-- Executable check for two items with one terminal. -/
def sharedFreeB (g : Grammar) (s : ItemSet) : Bool :=
  s.all fun e => s.all fun e' => e.1 == e'.1 ||
    (match g.prods[e.1.1]?.bind (·.inputs[e.1.2]?) with
     | none => true
     | some t => !t.isTerminal || (g.prods[e'.1.1]?.bind (·.inputs[e'.1.2]?)) != some t)

theorem sharedFreeB_sound {g : Grammar} {s : ItemSet} (h : sharedFreeB g s = true) : ¬ SharedTerminal g (Has s) := by
  rintro ⟨it, la, p, it', la', p', t, hne, ⟨las, hm, hla⟩, ⟨las', hm', hla'⟩, h2, h3, h4, h5, h6⟩
  simp only [sharedFreeB, List.all_eq_true] at h
  have := h _ hm _ hm'
  simp [h2, h3, h4, h5, hne, Lalr.isTerminal_iff.mpr h6] at this

/-- LALR(1)-ness can be read off the computed states. -/
theorem lalr1_of {ps : List Ast.Prod} (he : Expressible ps) {g : Grammar} (hg : Grammar.fromAst ps = .ok g)
    {depth : Nat} {P : (Item → Nat → Prop) → Prop} {lr : List ItemSet} {r : List ItemSet × List (Nat × Nat)}
    (hlr : ItemSet.items g depth = .ok lr) (hm : Lalr.mergeCores id lr = .ok r) (hP : ∀ s ∈ r.1, P (Has s)) :
    ∀ I, Reach g I → P (LalrOf g I) := by
  intro I hI
  have hok := Grammar.gok_of_fromAst he hg
  have hM := Lalr.merged_of hok hlr (collisionFree_id lr) hm
  obtain ⟨s, hs, he⟩ := hM.lalrOf hok hI
  rw [← he]; exact hP s hs

/-- The seven LALR(1) states of `ccG`. -/
def ccMerged : List ItemSet × List (Nat × Nat) := (Lalr.mergeCores id ccSets).toOption.getD ([], [])

theorem cc_merged : Lalr.mergeCores id ccSets = .ok ccMerged := ok_of_isSome (by decide +kernel)

theorem cc_lalr1 : IsLalr1 ccG :=
  lalr1_of (P := fun I => ¬ Conflict ccG I) cc_expressible cc_fromAst cc_items cc_merged fun s hs =>
    conflictFreeB_sound ((List.all_eq_true.mp (by decide +kernel : ccMerged.1.all (conflictFreeB ccG) = true)) s hs)

theorem cc_unshared : ∀ I, Reach ccG I → ¬ SharedTerminal ccG (LalrOf ccG I) :=
  lalr1_of (P := fun I => ¬ SharedTerminal ccG I) cc_expressible cc_fromAst cc_items cc_merged fun s hs =>
    sharedFreeB_sound ((List.all_eq_true.mp (by decide +kernel : ccMerged.1.all (sharedFreeB ccG) = true)) s hs)

example : Buildable (AstRule ccAst) "S".toList ∧ IsLalr1 ccG ∧ (∀ I, Reach ccG I → ¬ SharedTerminal ccG (LalrOf ccG I)) :=
  ⟨cc_buildable, cc_lalr1, cc_unshared⟩
example : ∃ L, ccG.lexer (fun _ => none) (fun _ l => l) = .ok L :=
  ⟨_, ok_of_isSome (d := ⟨⟨[], [], [], []⟩, [], []⟩) (by decide +kernel)⟩

/-- C25 is false: `S → "a" "b" | "a" "c"` is LALR(1) and construction panics with
`Conflict`. -/
theorem C25_false : ∃ ps g, Expressible ps ∧ Grammar.fromAst ps = .ok g ∧ FirstTerminates g ∧ IsLalr1 g ∧
    ∀ {H : Type} [DecidableEq H] (hash : List Item → H),
      (∀ lr, ItemSet.items g (Lalr.depthOf g) = .ok lr → CollisionFree hash lr) →
      Lalr.makeTables hash g (Lalr.depthOf g) = .error .conflict := by
  have hlr : ItemSet.items (lower abAst) (Lalr.depthOf (lower abAst)) =
      .ok ((ItemSet.items (lower abAst) (Lalr.depthOf (lower abAst))).toOption.getD []) :=
    ok_of_isSome (by decide +kernel)
  have hm : Lalr.mergeCores id ((ItemSet.items (lower abAst) (Lalr.depthOf (lower abAst))).toOption.getD []) =
      .ok ((Lalr.mergeCores id ((ItemSet.items (lower abAst) (Lalr.depthOf (lower abAst))).toOption.getD
        [])).toOption.getD ([], [])) := ok_of_isSome (by decide +kernel)
  refine ⟨abAst, lower abAst, ab_expressible, ab_fromAst, ab_first,
    lalr1_of (P := fun I => ¬ Conflict (lower abAst) I) ab_expressible ab_fromAst hlr hm fun s hs =>
      conflictFreeB_sound (g := lower abAst) ?_, fun hash hh => ?_⟩
  · refine List.all_eq_true.mp ?_ s hs
    decide +kernel
  · rw [C45_tables ab_expressible ab_fromAst _ hh (fun lr _ => collisionFree_id lr)]
    rfl

/-! ## C26 -/

/-- C26, exactly: the tables have every transition just when the GOTO of every LALR(1) state is a
canonical LR(1) set or itself an LALR(1) state.  Otherwise the code drops the transition. -/
theorem C26_exact {ps : List Ast.Prod} (he : Expressible ps) {g : Grammar}
    (hg : Grammar.fromAst ps = .ok g) {depth : Nat}
    (hh : ∀ lr, ItemSet.items g depth = .ok lr → CollisionFree hash lr)
    {action : Table Nat Action} {got : Table Str Nat} {states : List ItemSet}
    (ht : Lalr.makeTables hash g depth = .ok (action, got, states)) :
    AllTransitions g states action got ↔
      ∀ I X, Reach g I → (∃ it la, Advanced g (LalrOf g I) X it la) → Kept g I X := by
  have hok := Grammar.gok_of_fromAst he hg
  obtain ⟨lr, m, h1, _, hM, h4, hT⟩ := Lalr.tabOk hok hh ht
  rw [hT.transitions hok]
  constructor
  · rintro hC I X hI ⟨_, la, d', p, _, hadv, hp, hi⟩
    obtain ⟨s, hs, hH⟩ := hM.lalrOf hok hI
    rw [← hH] at hadv
    obtain ⟨j, hj⟩ := hC s hs _ la p X hadv hp hi
    exact (goes_kept he hg hM hH X).mp ⟨j, (congrFun (congrFun (hM.lookup_goes hok h4 hs) X) j).mp hj⟩
  · intro hall s hs it la p x hhas hp hi
    obtain ⟨I, hI, hH⟩ := hM.lalr_reach hok hs
    have hadv : Advanced g (Has s) x (it.1, it.2 + 1) la := ⟨it.2, p, rfl, hhas, hp, hi⟩
    obtain ⟨j, hj⟩ := (goes_kept he hg hM hH x).mpr (hall I x hI (by rw [← hH]; exact ⟨_, _, hadv⟩))
    exact ⟨j, (congrFun (congrFun (hM.lookup_goes hok h4 hs) x) j).mpr hj⟩

/-- C26, restricted to grammars no three of whose LR(1) states share a core.
Missing: other grammars, where transitions are dropped (`C26_false`). -/
theorem C26_transitions_partial {ps : List Ast.Prod} (he : Expressible ps) {g : Grammar}
    (hg : Grammar.fromAst ps = .ok g) {depth : Nat}
    (hh : ∀ lr, ItemSet.items g depth = .ok lr → CollisionFree hash lr)
    {action : Table Nat Action} {got : Table Str Nat} {states : List ItemSet}
    (ht : Lalr.makeTables hash g depth = .ok (action, got, states))
    (h2 : ∀ I J K, Reach g I → Reach g J → Reach g K → SameCore I J → SameCore J K →
      I = J ∨ I = K ∨ J = K) : AllTransitions g states action got := by
  have hok := Grammar.gok_of_fromAst he hg
  obtain ⟨lr, m, h1, _, hM, h4, hT⟩ := Lalr.tabOk hok hh ht
  rw [hT.transitions hok]
  refine hM.complete hok ?_ ?_
  · intro t1 ht1 t2 ht2 t3 ht3 hc hc'
    have hsame : ∀ {a b}, a ∈ lr → b ∈ lr → ItemSet.core a = ItemSet.core b → SameCore (Has a) (Has b) := by
      intro a b ha hb hab it
      rw [← ItemSet.mem_core (hM.lrwf a ha), ← ItemSet.mem_core (hM.lrwf b hb), hab]
    have heq : ∀ {a b}, a ∈ lr → b ∈ lr → Has a = Has b → a = b := by
      intro a b ha hb hab
      exact ItemSet.wf_ext (hM.lrwf a ha) (hM.lrwf b hb) fun it la => by rw [hab]
    rcases h2 _ _ _ (hM.lrreach t1 ht1) (hM.lrreach t2 ht2) (hM.lrreach t3 ht3) (hsame ht1 ht2 hc)
      (hsame ht2 ht3 hc') with h | h | h
    · exact .inl (heq ht1 ht2 h)
    · exact .inr (.inl (heq ht1 ht3 h))
    · exact .inr (.inr (heq ht2 ht3 h))
  · intro s hs x hx
    by_cases hadv : ∃ it la, Advanced g (Has s) x it la
    · obtain ⟨it, la, d', p, _, ⟨las, hm, _⟩, hp, hi⟩ := hadv
      exact Lalr.makeLalrTables_goto hok h4 hs hm hp hi
    · refine (ItemSet.goto_spec hok _ (hM.wf s hs) x).2.2 fun it la hc => ?_
      exact absurd (ItemSet.clo_ne.mp ⟨it, la, hc⟩) hadv

/-- If no three canonical sets share a core, every transition is kept. -/
theorem kept_of_two {ps : List Ast.Prod} (he : Expressible ps) {start : Ast.Prod}
    (hst : ps.find? (fun p => p.isStart) = some start) {g : Grammar} (hg : Grammar.fromAst ps = .ok g)
    (hf : Buildable (AstRule ps) start.name)
    (h2 : ∀ I J K, Reach g I → Reach g J → Reach g K → SameCore I J → SameCore J K →
      I = J ∨ I = K ∨ J = K) {I : Item → Nat → Prop} (hI : Reach g I) {X : Sym}
    (hX : ∃ it la, Advanced g (LalrOf g I) X it la) : Kept g I X := by
  have hok := Grammar.gok_of_fromAst he hg
  obtain ⟨lr, m, states, hlr, hm, _, _⟩ := C24_conflict_iff (hash := id) he hst hg hf fun lr _ => collisionFree_id lr
  have hM := Lalr.merged_of hok hlr (collisionFree_id lr) hm
  have hgo : ∀ s ∈ states, ∀ x, ∃ r, ItemSet.goto g (Lalr.depthOf g) s x = .ok r := fun s hs x =>
    hM.goto_build hok ((Grammar.buildable_iff he hst hg).mpr hf) hs x
  have hC : Lalr.Complete g states fun s x => Lalr.lookup g (Lalr.depthOf g) states lr m s x := by
    refine hM.complete hok ?_ fun s hs x _ => hgo s hs x
    intro t1 ht1 t2 ht2 t3 ht3 hc hc'
    have hsame : ∀ {a b}, a ∈ lr → b ∈ lr → ItemSet.core a = ItemSet.core b → SameCore (Has a) (Has b) := by
      intro a b ha hb hab it
      rw [← ItemSet.mem_core (hM.lrwf a ha), ← ItemSet.mem_core (hM.lrwf b hb), hab]
    have heq : ∀ {a b}, a ∈ lr → b ∈ lr → Has a = Has b → a = b := by
      intro a b ha hb hab
      exact ItemSet.wf_ext (hM.lrwf a ha) (hM.lrwf b hb) fun it la => by rw [hab]
    rcases h2 _ _ _ (hM.lrreach t1 ht1) (hM.lrreach t2 ht2) (hM.lrreach t3 ht3) (hsame ht1 ht2 hc)
      (hsame ht2 ht3 hc') with h | h | h
    · exact .inl (heq ht1 ht2 h)
    · exact .inr (.inl (heq ht1 ht3 h))
    · exact .inr (.inr (heq ht2 ht3 h))
  obtain ⟨s, hs, hH⟩ := hM.lalrOf hok hI
  obtain ⟨it, la, d', p, _, hadv, hp, hi⟩ := hX
  rw [← hH] at hadv
  obtain ⟨j, hj⟩ := hC s hs _ la p X hadv hp hi
  exact (goes_kept he hg hM hH X).mp ⟨j, (hM.lookup_iff hok hs (hgo s hs X) j).mp hj⟩

/-- C25, exactly, for grammars no three of whose LR(1) sets share a core and on which FIRST meets no left
recursion: tables are built just for the LALR(1) grammars without two items of one state that have the
same terminal after the dot.  Missing: grammars with three such sets, where a dropped transition can
hide a conflict. -/
theorem C25_exact_partial {ps : List Ast.Prod} (he : Expressible ps) {start : Ast.Prod}
    (hst : ps.find? (fun p => p.isStart) = some start) {g : Grammar} (hg : Grammar.fromAst ps = .ok g)
    (hf : Buildable (AstRule ps) start.name)
    (hh : ∀ lr, ItemSet.items g (Lalr.depthOf g) = .ok lr → CollisionFree hash lr)
    (h2 : ∀ I J K, Reach g I → Reach g J → Reach g K → SameCore I J → SameCore J K →
      I = J ∨ I = K ∨ J = K) :
    (∃ r, Lalr.makeTables hash g (Lalr.depthOf g) = .ok r) ↔
      IsLalr1 g ∧ ∀ I, Reach g I → ¬ SharedTerminal g (LalrOf g I) := by
  have hok := Grammar.gok_of_fromAst he hg
  rw [(C24_clash he hst hg hf hh).2]
  have hkept : ∀ {I it la p t}, Reach g I → LalrOf g I it la → g.prods[it.1]? = some p → p.inputs[it.2]? = some t →
      Kept g I t := fun {I it la p t} hI h1 h3 h4 =>
    kept_of_two he hst hg hf h2 hI ⟨(it.1, it.2 + 1), la, it.2, p, rfl, h1, h3, h4⟩
  constructor
  · refine fun hno => ⟨fun I hI => ?_, fun I hI => ?_⟩
    · rintro ⟨it, la, p, it', p', h1, h3, h4, h5, ⟨hne, h6, h7⟩ | ⟨la', t, h6, h7, h8⟩⟩
      · exact hno ⟨I, it, it', la, hI, hne, ⟨p, h3, .inl ⟨h1, h4⟩⟩, ⟨p', h5, .inl ⟨h6, h7⟩⟩⟩
      · have hne : it ≠ it' := by
          rintro rfl
          rw [h3] at h5; cases h5
          rw [h4] at h7; cases h7
        have hnt : ∀ A, t ≠ .nonTerm A := by
          obtain ⟨J, hJ, _, hJla⟩ := h1
          obtain ⟨t', ht', hnt⟩ := ItemSet.reach_termLa hok hJ it la hJla
          rw [h8] at ht'; cases ht'
          exact hnt
        exact hno ⟨I, it, it', la, hI, hne, ⟨p, h3, .inl ⟨h1, h4⟩⟩,
          ⟨p', h5, .inr ⟨la', t, h6, h7, hnt, h8, hkept hI h6 h5 h7⟩⟩⟩
    · rintro ⟨it, la, p, it', la', p', t, hne, h1, h3, h4, h5, h6, h7, hnt⟩
      have htm : t ∈ g.tokens := (hok.tokMem t).mpr (.inr ⟨p, List.mem_of_getElem? h4, List.mem_of_getElem? h6⟩)
      obtain ⟨k, hk⟩ := List.getElem?_of_mem htm
      exact hno ⟨I, it, it', k, hI, hne, ⟨p, h4, .inr ⟨la, t, h1, h6, hnt, hk, hkept hI h1 h4 h6⟩⟩,
        ⟨p', h5, .inr ⟨la', t, h3, h7, hnt, hk, hkept hI h3 h5 h7⟩⟩⟩
  · rintro ⟨hl, hs⟩ ⟨I, it, it', k, hI, hne, ⟨p, hp, h1⟩, ⟨p', hp', h1'⟩⟩
    rcases h1 with ⟨h1, h3⟩ | ⟨la, t, h1, h3, h4, h5, _⟩ <;> rcases h1' with ⟨k1, k3⟩ | ⟨la', t', k1, k3, k4, k5, _⟩
    · exact hl I hI ⟨it, k, p, it', p', h1, hp, h3, hp', .inl ⟨hne, k1, k3⟩⟩
    · exact hl I hI ⟨it, k, p, it', p', h1, hp, h3, hp', .inr ⟨la', t', k1, k3, k5⟩⟩
    · exact hl I hI ⟨it', k, p', it, p, k1, hp', k3, hp, .inr ⟨la, t, h1, h3, h5⟩⟩
    · rw [h5] at k5; cases k5
      exact hs I hI ⟨it, la, p, it', la', p', t, hne, h1, k1, hp, hp', h3, k3, h4⟩
end

/-- No three LR(1) states of `ccG` share a core. -/
theorem cc_two : ∀ I J K, Reach ccG I → Reach ccG J → Reach ccG K → SameCore I J → SameCore J K →
    I = J ∨ I = K ∨ J = K := by
  intro I J K hI hJ hK h1 h2
  obtain ⟨_, hw, _, _, hall⟩ := C22_items_exact cc_expressible cc_fromAst 6 cc_items
  have hget : ∀ {I}, Reach ccG I → ∃ s ∈ ccSets, I = Has s := by
    intro I hI
    obtain ⟨s, hs, he⟩ := hall I hI
    exact ⟨s, hs, by funext it la; exact propext (he it la).symm⟩
  obtain ⟨a, ha, rfl⟩ := hget hI
  obtain ⟨b, hb, rfl⟩ := hget hJ
  obtain ⟨c, hc, rfl⟩ := hget hK
  have h1' := Lalr.core_eq (hw a ha).1 (hw b hb).1 h1
  have h2' := Lalr.core_eq (hw b hb).1 (hw c hc).1 h2
  have : ∀ a ∈ ccSets, ∀ b ∈ ccSets, ∀ c ∈ ccSets, ItemSet.core a = ItemSet.core b →
      ItemSet.core b = ItemSet.core c → a = b ∨ a = c ∨ b = c := by decide +kernel
  rcases this a ha b hb c hc h1' h2' with rfl | rfl | rfl <;> simp

-- C25_exact_partial on `ccG`: the tables exist since it is LALR(1).
example : ∃ r, Lalr.makeTables id ccG (Lalr.depthOf ccG) = .ok r :=
  (C25_exact_partial cc_expressible rfl cc_fromAst cc_buildable (fun lr _ => collisionFree_id lr) cc_two).mpr
    ⟨cc_lalr1, cc_unshared⟩

-- C24_clash on `ccG` and on `abAst`.
example : ¬ Clash ccG :=
  (C24_clash (hash := id) cc_expressible rfl cc_fromAst cc_buildable (fun lr _ => collisionFree_id lr)).2.mp ⟨_, cc_tables⟩

example : Clash (lower abAst) :=
  (C24_clash (hash := id) ab_expressible rfl ab_fromAst
    (buildable_of_first ab_expressible rfl ab_fromAst ab_first)
    (fun lr _ => collisionFree_id lr)).1.mp rfl

/-- So C26 applies to `ccG`, two pairs of whose states do share a core. -/
theorem cc_transitions : AllTransitions ccG ccTables.2.2 ccTables.1 ccTables.2.1 := by
  have h := cc_tables
  generalize ccTables = r at h
  obtain ⟨a, t, s⟩ := r
  exact C26_transitions_partial (hash := id) cc_expressible cc_fromAst (fun lr _ => collisionFree_id lr) h cc_two

example : AllTransitions ccG ccTables.2.2 ccTables.1 ccTables.2.1 := cc_transitions

-- C26_exact, read from left to right on `ccG`.
example : ∀ I X, Reach ccG I → (∃ it la, Advanced ccG (LalrOf ccG I) X it la) → Kept ccG I X := by
  have h := cc_tables
  have ht := cc_transitions
  generalize ccTables = r at h ht
  obtain ⟨a, t, s⟩ := r
  exact (C26_exact (hash := id) cc_expressible cc_fromAst (fun lr _ => collisionFree_id lr) h).mp ht

/-- C26 is false: in the tables of `threeAst` the state with `B → "b" · C` has the
item `C → · "c"` but no shift on `"c"`. -/
theorem C26_false : ∃ ps g r, Expressible ps ∧ Grammar.fromAst ps = .ok g ∧ FirstTerminates g ∧
    (∀ {H : Type} [DecidableEq H] (hash : List Item → H),
      (∀ lr, ItemSet.items g (Lalr.depthOf g) = .ok lr → CollisionFree hash lr) →
      Lalr.makeTables hash g (Lalr.depthOf g) = .ok r) ∧
    ¬ AllTransitions g r.2.2 r.1 r.2.1 := by
  refine ⟨threeAst, lower threeAst, tablesOf (lower threeAst), three_expressible, three_fromAst, three_first,
    fun hash hh => ?_, fun h => ?_⟩
  · rw [C45_tables three_expressible three_fromAst _ hh (fun lr _ => collisionFree_id lr)]
    exact three_tables
  · have hs : (tablesOf (lower threeAst)).2.2[8]? = some [((4, 1), [3, 4]), ((5, 0), [3, 4])] := by decide +kernel
    have hp : (lower threeAst).prods[5]? = some ⟨"C".toList, [.strLit "c".toList], some [], some []⟩ := by
      decide +kernel
    obtain ⟨k, j, hk, hj⟩ := (h 8 _ (5, 0) 3 _ (.strLit "c".toList) hs ⟨[3, 4], by simp, by simp⟩ hp rfl).2 (by simp)
    have hlt : k < (lower threeAst).tokens.length := (List.getElem?_eq_some_iff.mp hk).1
    have hlen : (lower threeAst).tokens.length = 11 := by decide +kernel
    have hno : ∀ k < 11, (tablesOf (lower threeAst)).1.tryIndex 8 k = none := by decide +kernel
    rw [hno k (by omega)] at hj
    cases hj

end Verif.Props
