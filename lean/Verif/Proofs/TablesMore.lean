import Verif.Proofs.TablesOk

/-! When table construction succeeds, and when the tables have every transition. -/

namespace Verif
open Spec Grammar

namespace Lalr
open ItemSet
variable {g : Grammar} {d : Nat} {lr lalr : List ItemSet} {m : List (Nat × Nat)}

/-- The index map is total. -/
theorem Merged.map_total (hM : Merged g d lr lalr m) {i : Nat} {s : ItemSet} (hs : lr[i]? = some s) :
    ∃ k, mget i m = some k := by
  have : core s ∈ lalr.map core := by
    rw [hM.cores, mem_firsts]; exact List.mem_map_of_mem (List.mem_of_getElem? hs)
  obtain ⟨r, hr, he⟩ := List.mem_map.mp this
  obtain ⟨k, hk⟩ := List.getElem?_of_mem hr
  exact ⟨k, (hM.map i k).mpr ⟨s, r, hs, hk, he⟩⟩

theorem Merged.lookup_iff (hM : Merged g d lr lalr m) (h : GOk g) {s : ItemSet} (hs : s ∈ lalr) {x : Sym}
    (hok : ∃ r, ItemSet.goto g d s x = .ok r) (j : Nat) :
    lookup g d lalr lr m s x = some j ↔ Goes g lr lalr s x j := by
  obtain ⟨r, hr⟩ := hok
  obtain ⟨w1, w2⟩ := (goto_spec h d (hM.wf s hs) x).1 r hr
  have huniq : ∀ r', WFSet r' → (∀ it la, Has r' it la ↔ Clo g (Advanced g (Has s) x) it la) → r' = r :=
    fun r' h1 h2 => wf_ext h1 w1 fun it la => (h2 it la).trans (w2 it la).symm
  unfold lookup computeGoto
  simp only [hr, bind, Except.bind, pure, Except.pure]
  constructor
  · intro hl
    cases hi : indexOf lr r with
    | some i =>
      simp only [hi] at hl
      obtain ⟨r', s', h1, h2, h3⟩ := (hM.map i j).mp hl
      have hri := indexOf_some hi
      rw [hri] at h1; cases h1
      exact ⟨r, s', w1, w2, h2, .inl ⟨List.mem_of_getElem? hri, h3⟩⟩
    | none =>
      simp only [hi] at hl
      refine ⟨r, r, w1, w2, indexOf_some hl, .inr ⟨fun hin => ?_, rfl⟩⟩
      obtain ⟨i, hi'⟩ := indexOf_isSome.mp hin
      rw [hi] at hi'; cases hi'
  · rintro ⟨r1, r', h1, h2, h3, hcase⟩
    obtain rfl := huniq r1 h1 h2
    rcases hcase with ⟨hin, hc⟩ | ⟨hnin, rfl⟩
    · obtain ⟨i, hi⟩ := indexOf_isSome.mp hin
      simp only [hi]
      exact (hM.map i j).mpr ⟨r1, r', indexOf_some hi, h3, hc⟩
    · have hi : indexOf lr r' = none := by
        cases hi : indexOf lr r' with
        | none => rfl
        | some i => exact absurd (List.mem_of_getElem? (indexOf_some hi)) hnin
      simp only [hi]
      obtain ⟨j', hj'⟩ := indexOf_isSome.mp (List.mem_of_getElem? h3)
      rw [hj']
      exact congrArg some (hM.core_inj (indexOf_some hj') h3 rfl)

theorem Merged.termLa (hM : Merged g d lr lalr m) (h : GOk g) {s : ItemSet} (hs : s ∈ lalr) :
    ∀ it la, Has s it la → TermLa g la := by
  intro it la hh
  obtain ⟨t, ht, _, hh⟩ := (hM.has s hs it la).mp hh
  exact reach_termLa h (hM.lrreach t ht) it la hh

theorem Merged.goto_ok (hM : Merged g (depthOf g) lr lalr m) (h : GOk g) (hf : Fine g) {s : ItemSet} (hs : s ∈ lalr)
    (x : Sym) : ∃ r, ItemSet.goto g (depthOf g) s x = .ok r :=
  (goto_spec h _ (hM.wf s hs) x).2.2 fun _ _ hc =>
    ready_of h hf (clo_termLa (fun _ _ => adv_termLa (hM.termLa h hs)) hc)

theorem gotoRow_ok (hmap : ∀ i s, lr[i]? = some s → ∃ k, mget i m = some k) {i : Nat} {s : ItemSet}
    (hgo : ∀ x, ∃ r, ItemSet.goto g d s x = .ok r) :
    ∀ (as : List Str) (t : Table Str Nat), ∃ t', gotoRow g d lalr lr m i s as t = .ok t'
  | [], t => ⟨t, rfl⟩
  | a :: as, t => by
    obtain ⟨r, hr⟩ := hgo (.nonTerm a)
    simp only [gotoRow, hr, bind, Except.bind]
    cases h1 : indexOf lr r with
    | some j =>
      obtain ⟨k, hk⟩ := hmap j r (indexOf_some h1)
      simp only [hk]
      exact gotoRow_ok hmap hgo as _
    | none =>
      cases h2 : indexOf lalr r with
      | some j => exact gotoRow_ok hmap hgo as _
      | none => exact gotoRow_ok hmap hgo as _

theorem gotoStates_ok (hmap : ∀ i s, lr[i]? = some s → ∃ k, mget i m = some k) :
    ∀ (ss : List ItemSet) (i : Nat) (t : Table Str Nat),
    (∀ s ∈ ss, ∀ x, ∃ r, ItemSet.goto g d s x = .ok r) → ∃ t', gotoStates g d lalr lr m i ss t = .ok t'
  | [], _, t, _ => ⟨t, rfl⟩
  | s :: ss, i, t, hgo => by
    obtain ⟨t1, h1⟩ := gotoRow_ok (lalr := lalr) (i := i) hmap (hgo s (by simp)) g.nonTerminals t
    simp only [gotoStates, h1, bind, Except.bind]
    exact gotoStates_ok hmap ss (i + 1) t1 fun s hs => hgo s (by simp [hs])

theorem sound_of (h : GOk g) {s : ItemSet}
    (hgo : ∀ x, ∃ r, ItemSet.goto g d s x = .ok r) {e : Item × List Nat} (_he : e ∈ s) :
    Sound g d lalr lr m s e := by
  intro x hd _
  obtain ⟨p, hp, hi⟩ := (dotToken_iff h).mp hd
  refine ⟨?_, ?_⟩
  · have : x ∈ g.tokens := (h.tokMem x).mpr (.inr ⟨p, List.mem_of_getElem? hp, List.mem_of_getElem? hi⟩)
    obtain ⟨k, hk⟩ := List.getElem?_of_mem this
    exact ⟨k, h.tokIdx.mpr hk⟩
  · obtain ⟨r, hr⟩ := hgo x
    exact ⟨_, computeGoto_ok hr⟩

/-- Construction succeeds or reports a conflict, the latter exactly when two items
of a state call for one cell. -/
theorem makeLalrTables_cases (hM : Merged g d lr lalr m) (h : GOk g)
    (hgo : ∀ s ∈ lalr, ∀ x, ∃ r, ItemSet.goto g d s x = .ok r) :
    (makeLalrTables g d lalr lr m = .error .conflict ∧
      ∃ s ∈ lalr, ∃ it it' k a a', it ≠ it' ∧ Calls g (Goes g lr lalr s) s it k a ∧
        Calls g (Goes g lr lalr s) s it' k a') ∨
    ((∃ a t, makeLalrTables g d lalr lr m = .ok (a, t)) ∧
      ∀ s ∈ lalr, ∀ it it' k a a', Calls g (Goes g lr lalr s) s it k a →
        Calls g (Goes g lr lalr s) s it' k a' → it = it') := by
  have hsound : ∀ s ∈ lalr, ∀ e ∈ s, Sound g d lalr lr m s e := fun s hs e he => sound_of h (hgo s hs) he
  have heq := actionStates_eq (lalr := lalr) lalr 0 [] hsound
  have hcalls : ∀ {s}, s ∈ lalr → (fun x j => lookup g d lalr lr m s x = some j) = Goes g lr lalr s := by
    intro s hs
    funext x j
    exact propext (hM.lookup_iff h hs (hgo s hs x) j)
  obtain ⟨t, ht⟩ := gotoStates_ok (g := g) (lalr := lalr) (fun i s => hM.map_total) lalr 0 [] hgo
  have hcell : ∀ {n s}, lalr[n]? = some s → ∀ {it k a},
      (∃ las, (it, las) ∈ s ∧ (n, k, a) ∈ cells g d lalr lr m n s (it, las)) ↔
        Calls g (Goes g lr lalr s) s it k a := by
    intro n s hs it k a
    rw [mem_cells h (hM.rng h s (List.mem_of_getElem? hs)) (hM.wf s (List.mem_of_getElem? hs)),
      hcalls (List.mem_of_getElem? hs)]
  by_cases hn : ((allCells g d lalr lr m 0 lalr).map key).Nodup
  · obtain ⟨a, ha⟩ := (addAll_spec _ []).1 hn fun _ _ => rfl
    refine .inr ⟨⟨a, t, ?_⟩, ?_⟩
    · simp only [makeLalrTables, heq, ha, ht, bind, Except.bind]; rfl
    · intro s hs it it' k b b' hb hb'
      obtain ⟨n, hns⟩ := List.getElem?_of_mem hs
      obtain ⟨las, he, hx⟩ := (hcell hns).mpr hb
      obtain ⟨las', he', hx'⟩ := (hcell hns).mpr hb'
      have := (allCells_nodup lalr 0 hM.wf).mp hn n s hns _ he _ he' (n, k, b) (by simpa using hx)
        (n, k, b') (by simpa using hx') rfl
      simp only [Prod.mk.injEq] at this
      exact this.1
  · refine .inl ⟨?_, ?_⟩
    · cases ha : addAll (allCells g d lalr lr m 0 lalr) [] with
      | ok a => exact absurd ((addAll_spec _ _).2.1 a ha).1 hn
      | error e =>
        have := (addAll_spec _ _).2.2 e ha
        subst this
        simp only [makeLalrTables, heq, ha, bind, Except.bind]
    · rw [allCells_nodup lalr 0 hM.wf] at hn
      simp only [not_forall, Nat.zero_add] at hn
      obtain ⟨n, s, hns, ⟨it, las⟩, he, ⟨it', las'⟩, he', ⟨i, k, a⟩, hx, ⟨i', k', a'⟩, hx', hk, hne⟩ := hn
      have h1 := cells_state hx
      have h2 := cells_state hx'
      simp only at h1 h2
      subst h1 h2
      simp only [key, Prod.mk.injEq] at hk
      obtain ⟨_, rfl⟩ := hk
      refine ⟨s, List.mem_of_getElem? hns, it, it', k, a, a', ?_, (hcell hns).mp ⟨las, he, hx⟩,
        (hcell hns).mp ⟨las', he', hx'⟩⟩
      rintro rfl
      exact hne (by rw [wf_unique (hM.wf s (List.mem_of_getElem? hns)) he he'])

/-! ## transitions -/

/-- Every symbol after a dot has a transition. -/
def Complete (g : Grammar) (lalr : List ItemSet) (look : ItemSet → Sym → Option Nat) : Prop :=
  ∀ s ∈ lalr, ∀ it la p x, Has s it la → g.prods[it.1]? = some p → p.inputs[it.2]? = some x →
    ∃ j, look s x = some j

theorem asks_any (h : GOk g) {it : Item} {la la' q b : Nat} (ha : Asks g it la q b) (hla : TermLa g la') :
    ∃ b', Asks g it la' q b' := by
  obtain ⟨p, B, p', t, tb, h1, h2, h3, h4, h5, h6, h7⟩ := ha
  obtain ⟨t', ht', hnt⟩ := hla
  cases hb : p.inputs.drop (it.2 + 1) with
  | nil =>
    refine ⟨la', p, B, p', t', t', h1, h2, h3, h4, ht', ?_, ht'⟩
    rw [hb]
    exact ⟨hnt, [], .refl⟩
  | cons X rest =>
    refine ⟨b, p, B, p', t', tb, h1, h2, h3, h4, ht', ?_, h7⟩
    rw [hb, List.cons_append, starts_iff h.not_nil] at h6 ⊢
    exact h6

/-- The core of a closure depends on the core only. -/
theorem clo_core (h : GOk g) {I J : Item → Nat → Prop} (hIJ : ∀ it, (∃ la, I it la) → ∃ la, J it la)
    (hJ : ∀ it la, J it la → TermLa g la) {it : Item} {la : Nat} (hc : Clo g I it la) :
    ∃ la', Clo g J it la' := by
  induction hc with
  | base hi =>
    obtain ⟨la', hj⟩ := hIJ _ ⟨_, hi⟩
    exact ⟨la', .base hj⟩
  | step _ ha ih =>
    obtain ⟨la', hj⟩ := ih
    obtain ⟨b', hb⟩ := asks_any h ha (clo_termLa hJ hj)
    exact ⟨b', .step hj hb⟩

theorem clo_union {I J : Item → Nat → Prop} {it : Item} {la : Nat} :
    Clo g (fun it la => I it la ∨ J it la) it la ↔ Clo g I it la ∨ Clo g J it la := by
  constructor
  · intro hc
    induction hc with
    | base hi => rcases hi with hi | hi
                 · exact .inl (.base hi)
                 · exact .inr (.base hi)
    | step _ ha ih =>
      rcases ih with ih | ih
      · exact .inl (.step ih ha)
      · exact .inr (.step ih ha)
  · rintro (hc | hc)
    · exact clo_mono (fun _ _ hi => .base (.inl hi)) hc
    · exact clo_mono (fun _ _ hi => .base (.inr hi)) hc

theorem core_eq {s t : ItemSet} (hs : WFSet s) (ht : WFSet t)
    (h : ∀ it, (∃ la, Has s it la) ↔ ∃ la, Has t it la) : core s = core t :=
  sorted_ext hs.keys ht.keys fun it => by
    have := h it
    rw [← mem_core hs, ← mem_core ht] at this
    exact this

theorem advanced_core {s t : ItemSet} (hs : WFSet s) (ht : WFSet t) (hc : core s = core t) {x : Sym} {it : Item}
    (h : ∃ la, Advanced g (Has s) x it la) : ∃ la, Advanced g (Has t) x it la := by
  obtain ⟨la, d', p, h1, h2, h3, h4⟩ := h
  have hm := (mem_core hs).mpr ⟨la, h2⟩
  rw [hc] at hm
  obtain ⟨la', h2'⟩ := (mem_core ht).mp hm
  exact ⟨la', d', p, h1, h2', h3, h4⟩

/-- All transitions are present when no core belongs to three LR(1) sets. -/
theorem Merged.complete (hM : Merged g d lr lalr m) (h : GOk g)
    (h2 : ∀ t1 ∈ lr, ∀ t2 ∈ lr, ∀ t3 ∈ lr, core t1 = core t2 → core t2 = core t3 → t1 = t2 ∨ t1 = t3 ∨ t2 = t3)
    (hgo : ∀ s ∈ lalr, ∀ x ∈ g.tokens, ∃ r, ItemSet.goto g d s x = .ok r) :
    Complete g lalr (lookup g d lalr lr m) := by
  intro s hs it la p x hh hp hi
  obtain ⟨i0, hi0, hres⟩ := hM.res
  have hx : x ∈ g.tokens := (h.tokMem x).mpr (.inr ⟨p, List.mem_of_getElem? hp, List.mem_of_getElem? hi⟩)
  obtain ⟨r, hr⟩ := hgo s hs x hx
  obtain ⟨w1, w2⟩ := (goto_spec h d (hM.wf s hs) x).1 r hr
  have hadv : Advanced g (Has s) x (it.1, it.2 + 1) la := ⟨it.2, p, rfl, hh, hp, hi⟩
  -- successors of the members of the class
  have hmem : ∀ t ∈ lr, core t = core s → ∃ rt ∈ lr, WFSet rt ∧
      (∀ it la, Has rt it la ↔ Clo g (Advanced g (Has t) x) it la) ∧ core rt = core r := by
    intro t ht hc
    obtain ⟨rt, hrt, hcase⟩ := hres.closed t ht x hx
    obtain ⟨v1, v2⟩ := (goto_spec h d (hM.lrwf t ht) x).1 rt hrt
    have hcr : core rt = core r := by
      refine core_eq v1 w1 fun it => ?_
      simp only [v2, w2]
      constructor
      · rintro ⟨la, hc'⟩
        exact clo_core h (fun it => advanced_core (hM.lrwf t ht) (hM.wf s hs) hc)
          (fun _ _ => adv_termLa (hM.termLa h hs)) hc'
      · rintro ⟨la, hc'⟩
        exact clo_core h (fun it => advanced_core (hM.wf s hs) (hM.lrwf t ht) hc.symm)
          (fun _ _ => adv_termLa (reach_termLa h (hM.lrreach t ht))) hc'
    refine ⟨rt, ?_, v1, v2, hcr⟩
    rcases hcase with rfl | hin
    · exfalso
      have : (it.1, it.2 + 1) ∈ core r := (mem_core w1).mpr ⟨la, (w2 _ _).mpr (.base hadv)⟩
      rw [← hcr] at this
      simp [core] at this
    · exact hin
  -- two members represent the whole class
  obtain ⟨t1, ht1, hc1⟩ := hM.mem hs
  have hpair : ∃ t2 ∈ lr, core t2 = core s ∧ ∀ t ∈ lr, core t = core s → t = t1 ∨ t = t2 := by
    by_cases hone : ∀ t ∈ lr, core t = core s → t = t1
    · exact ⟨t1, ht1, hc1, fun t ht hc => .inl (hone t ht hc)⟩
    · simp only [not_forall] at hone
      obtain ⟨t2, ht2, hc2, hne⟩ := hone
      refine ⟨t2, ht2, hc2, fun t ht hc => ?_⟩
      rcases h2 t ht t1 ht1 t2 ht2 (hc.trans hc1.symm) (hc1.trans hc2.symm) with h' | h' | h'
      · exact .inl h'
      · exact .inr h'
      · exact absurd h'.symm hne
  obtain ⟨t2, ht2, hc2, hall⟩ := hpair
  have hsu : Has s = fun it la => Has t1 it la ∨ Has t2 it la := by
    funext it la
    apply propext
    rw [hM.has s hs]
    constructor
    · rintro ⟨t, ht, hc, hh⟩
      rcases hall t ht hc with rfl | rfl
      · exact .inl hh
      · exact .inr hh
    · rintro (hh | hh)
      · exact ⟨t1, ht1, hc1, hh⟩
      · exact ⟨t2, ht2, hc2, hh⟩
  obtain ⟨r1, hr1, v1, v2, hcr1⟩ := hmem t1 ht1 hc1
  obtain ⟨r2, hr2, u1, u2, hcr2⟩ := hmem t2 ht2 hc2
  have hru : ∀ it la, Has r it la ↔ Has r1 it la ∨ Has r2 it la := by
    intro it la
    rw [w2, v2, u2, ← clo_union]
    have : Advanced g (Has s) x = fun it la => Advanced g (Has t1) x it la ∨ Advanced g (Has t2) x it la := by
      funext it la
      apply propext
      rw [hsu]
      constructor
      · rintro ⟨d', p, k1, k2 | k2, k3⟩
        · exact .inl ⟨d', p, k1, k2, k3⟩
        · exact .inr ⟨d', p, k1, k2, k3⟩
      · rintro (⟨d', p, k1, k2, k3⟩ | ⟨d', p, k1, k2, k3⟩)
        · exact ⟨d', p, k1, .inl k2, k3⟩
        · exact ⟨d', p, k1, .inr k2, k3⟩
    rw [this]
  have hgoal : ∃ j, Goes g lr lalr s x j := by
    by_cases hin : r ∈ lr
    · have : core r ∈ lalr.map core := by rw [hM.cores, mem_firsts]; exact List.mem_map_of_mem hin
      obtain ⟨s', hs', he⟩ := List.mem_map.mp this
      obtain ⟨j, hj⟩ := List.getElem?_of_mem hs'
      exact ⟨j, r, s', w1, w2, hj, .inl ⟨hin, he⟩⟩
    · have hne : r1 ≠ r2 := by
        rintro rfl
        refine hin ?_
        have : r = r1 := wf_ext w1 v1 fun it la => by rw [hru]; simp
        rw [this]; exact hr1
      have : core r ∈ lalr.map core := by
        rw [hM.cores, mem_firsts, ← hcr1]; exact List.mem_map_of_mem hr1
      obtain ⟨s', hs', he⟩ := List.mem_map.mp this
      obtain ⟨j, hj⟩ := List.getElem?_of_mem hs'
      refine ⟨j, r, s', w1, w2, hj, .inr ⟨hin, ?_⟩⟩
      refine wf_ext (hM.wf s' hs') w1 fun it la => ?_
      rw [hM.has s' hs', hru]
      constructor
      · rintro ⟨t, ht, hc, hh⟩
        have hct : core t = core r := hc.trans he
        rcases h2 t ht r1 hr1 r2 hr2 (hct.trans hcr1.symm) (hcr1.trans hcr2.symm) with h' | h' | h'
        · exact .inl (h' ▸ hh)
        · exact .inr (h' ▸ hh)
        · exact absurd h' hne
      · rintro (hh | hh)
        · exact ⟨r1, hr1, hcr1.trans he.symm, hh⟩
        · exact ⟨r2, hr2, hcr2.trans he.symm, hh⟩
  obtain ⟨j, hj⟩ := hgoal
  exact ⟨j, (hM.lookup_iff h hs ⟨r, hr⟩ j).mpr hj⟩

/-- The states are the LALR(1) states of the specification. -/
theorem Merged.lalrOf (hM : Merged g d lr lalr m) (h : GOk g) {I : Item → Nat → Prop} (hI : Reach g I) :
    ∃ s ∈ lalr, Has s = LalrOf g I := by
  obtain ⟨i0, hi0, hres⟩ := hM.res
  obtain ⟨t, ht, rfl⟩ := hres.complete h hi0 hI
  have : core t ∈ lalr.map core := by rw [hM.cores, mem_firsts]; exact List.mem_map_of_mem ht
  obtain ⟨s, hs, he⟩ := List.mem_map.mp this
  refine ⟨s, hs, ?_⟩
  funext it la
  apply propext
  rw [hM.has s hs]
  constructor
  · rintro ⟨t', ht', hc, hh⟩
    refine ⟨Has t', hM.lrreach t' ht', fun it => ?_, hh⟩
    rw [← mem_core (hM.lrwf t ht), ← mem_core (hM.lrwf t' ht'), hc, he]
  · rintro ⟨J, hJ, hsame, hh⟩
    obtain ⟨t', ht', rfl⟩ := hres.complete h hi0 hJ
    exact ⟨t', ht', ((core_eq (hM.lrwf t ht) (hM.lrwf t' ht') hsame).symm).trans he.symm, hh⟩

theorem Merged.lalr_reach (hM : Merged g d lr lalr m) (h : GOk g) {s : ItemSet} (hs : s ∈ lalr) :
    ∃ I, Reach g I ∧ Has s = LalrOf g I := by
  obtain ⟨t, ht, hc⟩ := hM.mem hs
  obtain ⟨s', hs', he⟩ := hM.lalrOf h (hM.lrreach t ht)
  refine ⟨Has t, hM.lrreach t ht, ?_⟩
  rw [← he]
  have : core s' = core s := by
    rw [← hc]
    refine core_eq (hM.wf s' hs') (hM.lrwf t ht) fun it => ?_
    rw [he]
    constructor
    · rintro ⟨la, J, _, hsame, hj⟩; exact (hsame it).mpr ⟨la, hj⟩
    · rintro ⟨la, hh⟩; exact ⟨la, Has t, hM.lrreach t ht, fun _ => Iff.rfl, hh⟩
  obtain ⟨i, hi⟩ := List.getElem?_of_mem hs
  obtain ⟨i', hi'⟩ := List.getElem?_of_mem hs'
  have := hM.core_inj hi' hi this
  subst this
  rw [hi] at hi'; cases hi'; rfl

theorem goes_ne (hM : Merged g d lr lalr m) {s : ItemSet} {x : Sym} {j : Nat} (hg : Goes g lr lalr s x j) :
    ∃ it la, Advanced g (Has s) x it la := by
  obtain ⟨r, r', w1, w2, h3, hcase⟩ := hg
  have hne : r ≠ [] := by
    rcases hcase with ⟨hin, _⟩ | ⟨_, rfl⟩
    · obtain ⟨i0, _, hres⟩ := hM.res
      exact hres.inv.ne r hin
    · exact hM.ne r' (List.mem_of_getElem? h3)
  obtain ⟨it, la, hh⟩ := (has_ne_nil w1).mp hne
  exact clo_ne.mp ⟨it, la, (w2 it la).mp hh⟩

/-- The gotos of a successful construction. -/
theorem makeLalrTables_goto (h : GOk g) {action : Table Nat Action} {got : Table Str Nat}
    (ht : makeLalrTables g d lalr lr m = .ok (action, got)) {s : ItemSet} (hs : s ∈ lalr)
    {it : Item} {las : List Nat} {p : Production} {x : Sym} (hm : (it, las) ∈ s)
    (hp : g.prods[it.1]? = some p) (hi : p.inputs[it.2]? = some x) : ∃ r, ItemSet.goto g d s x = .ok r := by
  unfold makeLalrTables at ht
  cases ha : actionStates g d lalr lr m 0 lalr [] with
  | error e => simp [ha, bind, Except.bind] at ht
  | ok a =>
    cases hg : gotoStates g d lalr lr m 0 lalr [] with
    | error e => simp [ha, hg, bind, Except.bind] at ht
    | ok t =>
      by_cases hx : ∃ A, x = .nonTerm A
      · obtain ⟨A, rfl⟩ := hx
        refine (gotoStates_spec lalr 0 [] t (fun _ _ _ => rfl) hg).1 s hs A ?_
        exact List.mem_filterMap.mpr ⟨.nonTerm A,
          (h.tokMem _).mpr (.inr ⟨p, List.mem_of_getElem? hp, List.mem_of_getElem? hi⟩), rfl⟩
      · rw [not_exists] at hx
        obtain ⟨_, r, hr⟩ := actionStates_sound lalr 0 [] a ha s hs (it, las) hm x
          ((dotToken_iff h).mpr ⟨p, hp, hi⟩) (isTerminal_iff.mpr hx)
        cases hgo : ItemSet.goto g d s x with
        | ok r => exact ⟨r, rfl⟩
        | error e => simp [computeGoto, hgo, bind, Except.bind] at hr

/-- After a successful construction lookups are the specified ones. -/
theorem Merged.lookup_goes (hM : Merged g d lr lalr m) (h : GOk g) {action : Table Nat Action} {got : Table Str Nat}
    (ht : makeLalrTables g d lalr lr m = .ok (action, got)) {s : ItemSet} (hs : s ∈ lalr) :
    (fun x j => lookup g d lalr lr m s x = some j) = Goes g lr lalr s := by
  funext x j
  apply propext
  constructor
  · intro hl
    obtain ⟨r, _, hr, _⟩ := hM.lookup_some h hs hl
    exact (hM.lookup_iff h hs ⟨r, hr⟩ j).mp hl
  · intro hg
    obtain ⟨it, la, d', p, _, ⟨las, hm, _⟩, hp, hi⟩ := goes_ne hM hg
    exact (hM.lookup_iff h hs (makeLalrTables_goto h ht hs hm hp hi) j).mpr hg

theorem TabSound.transitions {action : Table Nat Action} {got : Table Str Nat} {look : ItemSet → Sym → Option Nat}
    (hT : TabSound g lalr action got look) (h : GOk g) : AllTransitions g lalr action got ↔ Complete g lalr look := by
  constructor
  · intro hA s hs it la p x hh hp hi
    obtain ⟨i, hsi⟩ := List.getElem?_of_mem hs
    obtain ⟨h1, h2⟩ := hA i s it la p x hsi hh hp hi
    by_cases hx : ∃ A, x = .nonTerm A
    · obtain ⟨A, rfl⟩ := hx
      obtain ⟨j, hj⟩ := h1 A rfl
      obtain ⟨s', hs', hl⟩ := (hT.go i A j).mp hj
      rw [hsi] at hs'; cases hs'
      exact ⟨j, hl⟩
    · rw [not_exists] at hx
      obtain ⟨k, j, hk, hj⟩ := h2 hx
      obtain ⟨s', it', hs', hc⟩ := (hT.act i k _).mp hj
      rw [hsi] at hs'; cases hs'
      generalize ha : Action.shift j = a at hc
      cases hc with
      | shift _ _ _ _ hk' hl =>
        rw [hk] at hk'; cases hk'
        exact ⟨_, hl⟩
      | reduce => cases ha
      | accept => cases ha
  · intro hC i s it la p x hsi hh hp hi
    obtain ⟨j, hj⟩ := hC s (List.mem_of_getElem? hsi) it la p x hh hp hi
    refine ⟨?_, fun hx => ?_⟩
    · rintro A rfl
      exact ⟨j, (hT.go i A j).mpr ⟨s, hsi, hj⟩⟩
    · have : x ∈ g.tokens := (h.tokMem x).mpr (.inr ⟨p, List.mem_of_getElem? hp, List.mem_of_getElem? hi⟩)
      obtain ⟨k, hk⟩ := List.getElem?_of_mem this
      obtain ⟨las, hm, _⟩ := hh
      exact ⟨k, j, hk, (hT.act i k _).mpr ⟨s, it, hsi, .shift hm hp hi hx hk hj⟩⟩

end Lalr
end Verif
