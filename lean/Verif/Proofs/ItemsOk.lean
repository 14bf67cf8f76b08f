import Verif.Proofs.ItemSetOk
import Verif.Model.Parse
import Mathlib.Data.List.Sublists

/-! The canonical collection of LR(1) item sets. -/

namespace Verif
open Spec Grammar

namespace ItemSet
variable {g : Grammar}

/-! ## ranges -/

/-- Production, dot and token number in range. -/
def Rng (g : Grammar) (it : Item) (la : Nat) : Prop :=
  (∃ p, g.prods[it.1]? = some p ∧ it.2 ≤ p.inputs.length) ∧ la < g.tokens.length

theorem clo_rng {I : Item → Nat → Prop} (hI : ∀ it la, I it la → Rng g it la) {it : Item} {la : Nat}
    (h : Clo g I it la) : Rng g it la := by
  induction h with
  | base h => exact hI _ _ h
  | step _ ha _ =>
    obtain ⟨p, B, p', t, tb, _, _, h1, _, _, _, h2⟩ := ha
    exact ⟨⟨p', h1, Nat.zero_le _⟩, (List.getElem?_eq_some_iff.mp h2).1⟩

theorem adv_rng {I : Item → Nat → Prop} (hI : ∀ it la, I it la → Rng g it la) {X : Sym} {it : Item} {la : Nat}
    (h : Advanced g I X it la) : Rng g it la := by
  obtain ⟨d, p, h1, h2, h3, h4⟩ := h
  have := (List.getElem?_eq_some_iff.mp h4).1
  exact ⟨⟨p, h3, by omega⟩, (hI _ _ h2).2⟩

theorem tok_pos (h : GOk g) : 0 < g.tokens.length := (List.getElem?_eq_some_iff.mp h.tok0).1

theorem reach_rng (h : GOk g) {I : Item → Nat → Prop} (hr : Reach g I) : ∀ it la, I it la → Rng g it la := by
  induction hr with
  | init =>
    refine fun it la => clo_rng ?_
    rintro it la ⟨rfl, rfl⟩
    obtain ⟨S, hS⟩ := h.start
    exact ⟨⟨_, hS, Nat.zero_le _⟩, tok_pos h⟩
  | goto _ _ ih => exact fun it la => clo_rng fun it la => adv_rng ih

theorem has_ne_nil {s : ItemSet} (h : WFSet s) : s ≠ [] ↔ ∃ it la, Has s it la := by
  constructor
  · intro hne
    obtain ⟨⟨it, l⟩, hm⟩ := List.exists_mem_of_ne_nil s hne
    obtain ⟨la, hla⟩ := List.exists_mem_of_ne_nil l (h.las it l hm).1
    exact ⟨it, la, l, hm, hla⟩
  · rintro ⟨it, la, l, hm, _⟩ rfl
    simp at hm

/-! ## number of item sets -/

/-- All pairs of an item and a lookahead. -/
def allPairs (g : Grammar) : List (Item × Nat) :=
  (List.range g.prods.length).flatMap fun q =>
    (List.range ((g.prodAt q).inputs.length + 1)).flatMap fun d =>
      (List.range g.tokens.length).map fun b => ((q, d), b)

theorem allPairs_length (g : Grammar) : (allPairs g).length = pairCount g := by
  unfold allPairs pairCount
  rw [List.length_flatMap]
  have h1 : ∀ q, ((List.range ((g.prodAt q).inputs.length + 1)).flatMap fun d =>
      (List.range g.tokens.length).map fun b => ((q, d), b)).length =
      ((g.prodAt q).inputs.length + 1) * g.tokens.length := by
    intro q
    rw [List.length_flatMap]
    simp
  simp only [h1]
  have h2 : (List.range g.prods.length).map (fun q => (g.prodAt q).inputs.length + 1) =
      g.prods.map fun p => p.inputs.length + 1 := by
    apply List.ext_getElem
    · simp
    · intro i h1 h2
      simp only [List.getElem_map, List.getElem_range]
      have : i < g.prods.length := by simpa using h1
      simp [prodAt, List.getD, List.getElem?_eq_getElem this]
  rw [← h2]
  generalize List.range g.prods.length = l
  induction l with
  | nil => simp
  | cons a l ih => rw [List.map_cons, List.sum_cons, List.map_cons, List.sum_cons, ih, ← Nat.add_mul]

theorem mem_allPairs {it : Item} {la : Nat} (h : Rng g it la) : (it, la) ∈ allPairs g := by
  obtain ⟨⟨p, hp, hd⟩, hla⟩ := h
  have hi := (List.getElem?_eq_some_iff.mp hp).1
  simp only [allPairs, List.mem_flatMap, List.mem_range, List.mem_map]
  refine ⟨it.1, hi, it.2, ?_, la, hla, rfl⟩
  simp only [prodAt, List.getD, hp, Option.getD_some]
  omega

open Classical in
theorem bound {c : List ItemSet} (hn : c.Nodup) (hw : ∀ s ∈ c, WFSet s)
    (hr : ∀ s ∈ c, ∀ it la, Has s it la → Rng g it la) : c.length ≤ 2 ^ pairCount g := by
  let f : ItemSet → List (Item × Nat) := fun s => (allPairs g).filter fun x => decide (Has s x.1 x.2)
  have hf : ∀ s it la, Has s it la ∧ Rng g it la → (it, la) ∈ f s := by
    intro s it la hh
    simp only [f, List.mem_filter, decide_eq_true_eq]
    exact ⟨mem_allPairs hh.2, hh.1⟩
  have hf' : ∀ s it la, (it, la) ∈ f s → Has s it la := by
    intro s it la hh
    simp only [f, List.mem_filter, decide_eq_true_eq] at hh
    exact hh.2
  have hn' : (c.map f).Nodup := by
    rw [List.nodup_map_iff_inj_on hn]
    intro s hs t ht he
    refine wf_ext (hw s hs) (hw t ht) fun it la => ⟨fun hh => ?_, fun hh => ?_⟩
    · exact hf' t it la (he ▸ hf s it la ⟨hh, hr s hs it la hh⟩)
    · exact hf' s it la (he.symm ▸ hf t it la ⟨hh, hr t ht it la hh⟩)
  have hsub : ∀ u ∈ c.map f, u ∈ (allPairs g).sublists := by
    intro u hu
    obtain ⟨s, _, rfl⟩ := List.mem_map.mp hu
    rw [List.mem_sublists]
    exact List.filter_sublist
  have := (hn'.subperm hsub).length_le
  rw [List.length_sublists, allPairs_length, List.length_map] at this
  exact this

/-! ## one round -/

theorem itemsTemp_mem {d : Nat} {c temp : List ItemSet} (h : itemsTemp g d c = .ok temp) (s : ItemSet) :
    s ∈ temp ↔ ∃ set ∈ c, ∃ x ∈ g.tokens, goto g d set x = .ok s ∧ s ≠ [] ∧ s ∉ c := by
  unfold itemsTemp at h
  rw [flatMapRes_mem h]
  constructor
  · rintro ⟨set, hs, bs, hb, hm⟩
    cases hg : mapRes (fun x => goto g d set x) g.tokens with
    | error e => simp [hg, bind, Except.bind] at hb
    | ok gs =>
      simp only [hg, bind, Except.bind, pure, Except.pure, Except.ok.injEq] at hb
      subst hb
      simp only [List.mem_filter, Bool.and_eq_true, Bool.not_eq_true', List.isEmpty_eq_false_iff,
        decide_eq_false_iff_not] at hm
      obtain ⟨x, hx, hgo⟩ := (mapRes_mem hg s).mp hm.1
      exact ⟨set, hs, x, hx, hgo, hm.2.1, hm.2.2⟩
  · rintro ⟨set, hs, x, hx, hgo, h1, h2⟩
    obtain ⟨bs, hb⟩ := flatMapRes_each h hs
    refine ⟨set, hs, bs, hb, ?_⟩
    cases hg : mapRes (fun x => goto g d set x) g.tokens with
    | error e => simp [hg, bind, Except.bind] at hb
    | ok gs =>
      simp only [hg, bind, Except.bind, pure, Except.pure, Except.ok.injEq] at hb
      subst hb
      simp only [List.mem_filter, Bool.and_eq_true, Bool.not_eq_true', List.isEmpty_eq_false_iff,
        decide_eq_false_iff_not]
      exact ⟨(mapRes_mem hg s).mpr ⟨x, hx, hgo⟩, h1, h2⟩

theorem itemsTemp_goto {d : Nat} {c temp : List ItemSet} (h : itemsTemp g d c = .ok temp) {set : ItemSet}
    (hs : set ∈ c) {x : Sym} (hx : x ∈ g.tokens) : ∃ s, goto g d set x = .ok s := by
  unfold itemsTemp at h
  obtain ⟨bs, hb⟩ := flatMapRes_each h hs
  cases hg : mapRes (fun x => goto g d set x) g.tokens with
  | error e => simp [hg, bind, Except.bind] at hb
  | ok gs =>
    obtain ⟨b, _, h⟩ := mapRes_each hg hx
    exact ⟨b, h⟩

theorem itemsTemp_error {d : Nat} {c : List ItemSet} {e : Err} (h : itemsTemp g d c = .error e) :
    ∃ set ∈ c, ∃ x ∈ g.tokens, goto g d set x = .error e := by
  unfold itemsTemp at h
  obtain ⟨set, hs, h⟩ := flatMapRes_error h
  cases hg : mapRes (fun x => goto g d set x) g.tokens with
  | error e' =>
    simp only [hg, bind, Except.bind, Except.error.injEq] at h
    subst h
    obtain ⟨x, hx, h⟩ := mapRes_error hg
    exact ⟨set, hs, x, hx, h⟩
  | ok gs => simp [hg, bind, Except.bind, pure, Except.pure] at h

theorem itemsTemp_ok {d : Nat} {c : List ItemSet}
    (h : ∀ set ∈ c, ∀ x ∈ g.tokens, ∃ s, goto g d set x = .ok s) : ∃ temp, itemsTemp g d c = .ok temp := by
  refine flatMapRes_of_forall fun set hs => ?_
  obtain ⟨gs, hg⟩ := mapRes_of_forall (h set hs)
  exact ⟨_, by rw [hg]; rfl⟩

theorem foldl_iinsert : ∀ (l c : List ItemSet), c.Nodup →
    (l.foldl (fun c s => iinsert s c) c).Nodup ∧ c <+: l.foldl (fun c s => iinsert s c) c ∧
    ∀ s, s ∈ l.foldl (fun c s => iinsert s c) c ↔ s ∈ c ∨ s ∈ l := by
  intro l
  induction l with
  | nil => intro c hc; exact ⟨hc, List.prefix_rfl, by simp⟩
  | cons a l ih =>
    intro c hc
    simp only [List.foldl_cons]
    by_cases ha : a ∈ c
    · have : iinsert a c = c := by simp [iinsert, ha]
      rw [this]
      obtain ⟨h1, h2, h3⟩ := ih c hc
      refine ⟨h1, h2, fun s => (h3 s).trans ?_⟩
      simp only [List.mem_cons]
      constructor
      · rintro (h | h) <;> simp [h]
      · rintro (h | rfl | h)
        · exact .inl h
        · exact .inl ha
        · exact .inr h
    · have : iinsert a c = c ++ [a] := by simp [iinsert, ha]
      rw [this]
      obtain ⟨h1, h2, h3⟩ := ih (c ++ [a]) (by
        rw [List.nodup_append]
        refine ⟨hc, by simp, ?_⟩
        intro x hx y hy he
        simp only [List.mem_singleton] at hy
        subst hy he
        exact ha hx)
      refine ⟨h1, (List.prefix_append c [a]).trans h2, fun s => (h3 s).trans ?_⟩
      simp only [List.mem_append, List.mem_cons, List.not_mem_nil, or_false, or_assoc]

/-! ## the loop -/

/-- Invariant of the collection. -/
structure CInv (g : Grammar) (c : List ItemSet) : Prop where
  nodup : c.Nodup
  wf : ∀ s ∈ c, WFSet s
  reach : ∀ s ∈ c, Reach g (Has s)
  ne : ∀ s ∈ c, s ≠ []

theorem goto_none {X : Sym} (h : GOk g) (hX : X ∉ g.tokens) (I : Item → Nat → Prop) {it : Item} {la : Nat} :
    ¬ Advanced g I X it la := by
  rintro ⟨d, p, _, _, hp, hi⟩
  exact hX ((h.tokMem X).mpr (.inr ⟨p, List.mem_of_getElem? hp, List.mem_of_getElem? hi⟩))

theorem clo_empty {I : Item → Nat → Prop} (hI : ∀ it la, ¬ I it la) {it : Item} {la : Nat} :
    ¬ Clo g I it la := by
  intro h
  induction h with
  | base h => exact hI _ _ h
  | step _ _ ih => exact ih

theorem clo_ne {I : Item → Nat → Prop} : (∃ it la, Clo g I it la) ↔ ∃ it la, I it la := by
  constructor
  · rintro ⟨it, la, h⟩
    induction h with
    | base h => exact ⟨_, _, h⟩
    | step _ _ ih => exact ih
  · rintro ⟨it, la, h⟩
    exact ⟨it, la, .base h⟩

theorem goto_reach (h : GOk g) {d : Nat} {s r : ItemSet} {x : Sym} (hw : WFSet s) (hs : Reach g (Has s))
    (hr : goto g d s x = .ok r) (hne : r ≠ []) : WFSet r ∧ Reach g (Has r) := by
  obtain ⟨h1, h2⟩ := (goto_spec h d hw x).1 r hr
  have heq : Has r = Clo g (Advanced g (Has s) x) := by funext it la; exact propext (h2 it la)
  refine ⟨h1, ?_⟩
  rw [heq]
  refine .goto hs (clo_ne (g := g).mp ?_)
  obtain ⟨it, la, hh⟩ := (has_ne_nil h1).mp hne
  exact ⟨it, la, (h2 it la).mp hh⟩

/-- The result of the loop. -/
structure CRes (g : Grammar) (d : Nat) (c r : List ItemSet) : Prop where
  inv : CInv g r
  pre : c <+: r
  closed : ∀ s ∈ r, ∀ x ∈ g.tokens, ∃ t, goto g d s x = .ok t ∧ (t = [] ∨ t ∈ r)

theorem itemsLoop_spec (h : GOk g) (d : Nat) : ∀ (fuel : Nat) (c : List ItemSet), CInv g c →
    2 ^ pairCount g < fuel + c.length →
    (∀ r, itemsLoop g d fuel c = .ok r → CRes g d c r) ∧
    (∀ e, itemsLoop g d fuel c = .error e →
      ∃ s x, WFSet s ∧ Reach g (Has s) ∧ goto g d s x = .error e) ∧
    ((∀ I, Reach g I → ∀ it la, I it la → Ready g d it la) → ∃ r, itemsLoop g d fuel c = .ok r) := by
  have hok : ∀ c, CInv g c → (∀ I, Reach g I → ∀ it la, I it la → Ready g d it la) →
      ∃ temp, itemsTemp g d c = .ok temp := by
    intro c hc hr
    refine itemsTemp_ok fun set hs x hx => ?_
    refine (goto_spec h d (hc.wf set hs) x).2.2 fun it la hcl => ?_
    exact hr _ (.goto (hc.reach set hs) (clo_ne.mp ⟨it, la, hcl⟩)) it la hcl
  intro fuel
  induction fuel with
  | zero =>
    intro c hc hf
    have := bound hc.nodup hc.wf fun s hs => reach_rng h (hc.reach s hs)
    omega
  | succ fuel ih =>
    intro c hc hf
    unfold itemsLoop
    cases ht : itemsTemp g d c with
    | error e =>
      refine ⟨by simp [bind, Except.bind], ?_, fun hr => ?_⟩
      · intro e' he
        simp only [bind, Except.bind, Except.error.injEq] at he
        subst he
        obtain ⟨set, hs, x, _, hx⟩ := itemsTemp_error ht
        exact ⟨set, x, hc.wf set hs, hc.reach set hs, hx⟩
      · obtain ⟨temp, h'⟩ := hok c hc hr
        rw [ht] at h'; cases h'
    | ok temp =>
      simp only [bind, Except.bind, pure, Except.pure]
      have hm := itemsTemp_mem ht
      by_cases hem : temp = []
      · subst hem
        simp only [List.isEmpty_nil, if_true, Except.ok.injEq, reduceCtorEq, false_implies, implies_true,
          exists_eq', and_true]
        rintro r rfl
        refine ⟨hc, List.prefix_rfl, fun s hs x hx => ?_⟩
        obtain ⟨t, hgo⟩ := itemsTemp_goto ht hs hx
        refine ⟨t, hgo, ?_⟩
        by_contra hno
        rw [not_or] at hno
        have := (hm t).mpr ⟨s, hs, x, hx, hgo, hno.1, hno.2⟩
        simp at this
      · have hne : temp.isEmpty = false := by simpa using hem
        simp only [hne, Bool.false_eq_true, if_false]
        obtain ⟨k1, k2, k3⟩ := foldl_iinsert temp.reverse c hc.nodup
        have hall : ∀ s ∈ temp, s ∉ c ∧ s ≠ [] ∧ WFSet s ∧ Reach g (Has s) := by
          intro s hs
          obtain ⟨set, h1, x, h2, h3, h4, h5⟩ := (hm s).mp hs
          have := goto_reach h (hc.wf set h1) (hc.reach set h1) h3 h4
          exact ⟨h5, h4, this.1, this.2⟩
        have hc' : CInv g (temp.reverse.foldl (fun c s => iinsert s c) c) := by
          refine ⟨k1, ?_, ?_, ?_⟩ <;> intro s hs <;>
            rcases (k3 s).mp hs with h' | h'
          · exact hc.wf s h'
          · exact (hall s (List.mem_reverse.mp h')).2.2.1
          · exact hc.reach s h'
          · exact (hall s (List.mem_reverse.mp h')).2.2.2
          · exact hc.ne s h'
          · exact (hall s (List.mem_reverse.mp h')).2.1
        have hlen : c.length < (temp.reverse.foldl (fun c s => iinsert s c) c).length := by
          obtain ⟨s, hs⟩ := List.exists_mem_of_ne_nil temp hem
          have hle := k2.length_le
          rcases Nat.lt_or_ge c.length (temp.reverse.foldl (fun c s => iinsert s c) c).length with h' | h'
          · exact h'
          · have := k2.eq_of_length (by omega)
            have hin := (k3 s).mpr (.inr (List.mem_reverse.mpr hs))
            rw [← this] at hin
            exact absurd hin (hall s hs).1
        obtain ⟨i1, i2, i3⟩ := ih _ hc' (by omega)
        refine ⟨fun r hr => ?_, i2, i3⟩
        obtain ⟨j1, j2, j3⟩ := i1 r hr
        exact ⟨j1, k2.trans j2, j3⟩

theorem wf_initial : WFSet initial := by
  refine ⟨by simp [initial, Sorted], ?_⟩
  intro it l hm
  simp only [initial, List.mem_singleton, Prod.mk.injEq] at hm
  obtain ⟨rfl, rfl⟩ := hm
  simp [Sorted]

theorem has_initial : Has initial = fun it la => it = (0, 0) ∧ la = 0 := by
  funext it la
  apply propext
  unfold Has initial
  constructor
  · rintro ⟨las, hm, hla⟩
    simp only [List.mem_singleton, Prod.mk.injEq] at hm
    obtain ⟨rfl, rfl⟩ := hm
    simpa [Lex.EOF_IDX] using hla
  · rintro ⟨rfl, rfl⟩
    exact ⟨_, List.mem_singleton.mpr rfl, by simp [Lex.EOF_IDX]⟩

/-- `items`. -/
theorem items_spec (h : GOk g) (d : Nat) :
    (∀ r, items g d = .ok r → ∃ i0, closure g d initial = .ok i0 ∧ CRes g d [i0] r) ∧
    (∀ e, items g d = .error e → closure g d initial = .error e ∨
      ∃ s x, WFSet s ∧ Reach g (Has s) ∧ goto g d s x = .error e) ∧
    ((∀ I, Reach g I → ∀ it la, I it la → Ready g d it la) → ∃ r, items g d = .ok r) := by
  obtain ⟨c1, c2, c3⟩ := closure_spec h d wf_initial
  unfold items
  cases hi : closure g d initial with
  | error e =>
    refine ⟨by simp [bind, Except.bind], ?_, fun hr => ?_⟩
    · intro e' he
      simp only [bind, Except.bind, Except.error.injEq] at he
      subst he
      exact .inl rfl
    · obtain ⟨r, hr⟩ := c3 fun it la hc => hr _ .init it la (by rw [← has_initial]; exact hc)
      rw [hi] at hr; cases hr
  | ok i0 =>
    obtain ⟨h1, h2⟩ := c1 i0 hi
    have heq : Has i0 = Clo g fun it la => it = (0, 0) ∧ la = 0 := by
      rw [← has_initial]; funext it la; exact propext (h2 it la)
    have hinv : CInv g [i0] := by
      refine ⟨by simp, by simpa using h1, ?_, ?_⟩
      · intro s hs
        simp only [List.mem_singleton] at hs
        subst hs
        rw [heq]; exact .init
      · intro s hs
        simp only [List.mem_singleton] at hs
        subst hs
        rw [has_ne_nil h1]
        exact ⟨(0, 0), 0, by rw [heq]; exact .base ⟨rfl, rfl⟩⟩
    obtain ⟨l1, l2, l3⟩ := itemsLoop_spec h d (2 ^ pairCount g) [i0] hinv (by simp)
    simp only [bind, Except.bind]
    refine ⟨fun r hr => ⟨i0, rfl, l1 r hr⟩, fun e he => .inr (l2 e he), l3⟩

theorem items_error (h : GOk g) {d : Nat} {e : Err} (he : items g d = .error e) :
    e = .stackOverflow ∨ e = .undefinedNonTerminal := by
  rcases (items_spec h d).2.1 e he with hc | ⟨s, x, hw, hr, hgo⟩
  · rcases (closure_spec h d wf_initial).2.1 e hc with ⟨_, it, la, hcl, hn⟩ | h'
    · rw [has_initial] at hcl
      have := (reach_rng h .init it la hcl).2
      simp only [List.getElem?_eq_none_iff] at hn
      omega
    · exact h'
  · rcases (goto_spec h d hw x).2.1 e hgo with ⟨_, it, la, hcl, hn⟩ | h'
    · have := (reach_rng h (.goto hr (clo_ne (g := g).mp ⟨it, la, hcl⟩)) it la hcl).2
      simp only [List.getElem?_eq_none_iff] at hn
      omega
    · exact h'

/-! ## when FIRST terminates -/

/-- All nonterminals are defined, and FIRST terminates for every nonterminal that
follows a nonterminal in a body (the only ones the closure asks for). -/
def Fine (g : Grammar) : Prop :=
  (∀ p ∈ g.prods, ∀ A, Sym.nonTerm A ∈ p.inputs → ∃ q ∈ g.prods, q.name = A) ∧
  ∀ p ∈ g.prods, ∀ i A B, p.inputs[i]? = some (.nonTerm A) → p.inputs[i + 1]? = some (.nonTerm B) →
    OkAt g (Lalr.depthOf g) (.nonTerm B)

/-- The lookahead is a terminal or the end of input. -/
def TermLa (g : Grammar) (la : Nat) : Prop := ∃ t, g.tokens[la]? = some t ∧ ∀ A, t ≠ .nonTerm A

theorem okAt_term {d : Nat} {t : Sym} (h : ∀ A, t ≠ .nonTerm A) : OkAt g (d + 1) t :=
  fun A hA => absurd hA (h A)

theorem ready_of (h : GOk g) (hf : Fine g) {it : Item} {la : Nat} (hla : TermLa g la) :
    Ready g (Lalr.depthOf g) it la := by
  intro B hB
  obtain ⟨p, hp, hi⟩ := (dotName_iff h).mp hB
  obtain ⟨t, ht, hnt⟩ := hla
  refine ⟨hf.1 p (List.mem_of_getElem? hp) B (List.mem_of_getElem? hi), t, ht, ?_⟩
  obtain ⟨rest, hrest⟩ := beta_cons g it t
  unfold beta at hrest
  rw [h.prodAt_of hp] at hrest
  cases hn : p.inputs[it.2 + 1]? with
  | none =>
    rw [List.drop_eq_nil_of_le (by simpa using hn)] at hrest
    simp only [List.nil_append, List.cons.injEq] at hrest
    rw [← hrest.1]
    exact okAt_term hnt
  | some Y =>
    obtain ⟨hlt, hY⟩ := List.getElem?_eq_some_iff.mp hn
    rw [List.drop_eq_getElem_cons hlt, hY] at hrest
    simp only [List.cons_append, List.cons.injEq] at hrest
    rw [← hrest.1]
    by_cases hnY : ∃ A, Y = .nonTerm A
    · obtain ⟨A, rfl⟩ := hnY
      exact hf.2 p (List.mem_of_getElem? hp) it.2 B A hi hn
    · rw [not_exists] at hnY
      exact okAt_term hnY

theorem clo_termLa {I : Item → Nat → Prop} (hI : ∀ it la, I it la → TermLa g la) {it : Item} {la : Nat}
    (h : Clo g I it la) : TermLa g la := by
  induction h with
  | base h => exact hI _ _ h
  | step _ ha _ =>
    obtain ⟨p, B, p', t, tb, _, _, _, _, _, hs, h2⟩ := ha
    exact ⟨tb, h2, hs.1⟩

theorem adv_termLa {I : Item → Nat → Prop} (hI : ∀ it la, I it la → TermLa g la) {X : Sym} {it : Item} {la : Nat}
    (h : Advanced g I X it la) : TermLa g la := by
  obtain ⟨d, p, _, h2, _, _⟩ := h
  exact hI _ _ h2

theorem reach_termLa (h : GOk g) {I : Item → Nat → Prop} (hr : Reach g I) :
    ∀ it la, I it la → TermLa g la := by
  induction hr with
  | init =>
    refine fun it la => clo_termLa ?_
    rintro it la ⟨rfl, rfl⟩
    exact ⟨.eof, h.tok0, by simp⟩
  | goto _ _ ih => exact fun it la => clo_termLa fun it la => adv_termLa ih

/-- Every reachable set is in the result. -/
theorem CRes.complete (h : GOk g) {d : Nat} {i0 : ItemSet} {r : List ItemSet}
    (hi : closure g d initial = .ok i0) (hr : CRes g d [i0] r) {I : Item → Nat → Prop} (hI : Reach g I) :
    ∃ s ∈ r, Has s = I := by
  induction hI with
  | init =>
    obtain ⟨_, h2⟩ := (closure_spec h d wf_initial).1 i0 hi
    refine ⟨i0, hr.pre.subset (by simp), ?_⟩
    rw [← has_initial]; funext it la; exact propext (h2 it la)
  | @goto I X _ hne ih =>
    obtain ⟨s, hs, rfl⟩ := ih
    by_cases hX : X ∈ g.tokens
    · obtain ⟨t, hgo, ht⟩ := hr.closed s hs X hX
      obtain ⟨k1, k2⟩ := (goto_spec h d (hr.inv.wf s hs) X).1 t hgo
      have heq : Has t = Clo g (Advanced g (Has s) X) := by funext it la; exact propext (k2 it la)
      rcases ht with rfl | ht
      · obtain ⟨it, la, hadv⟩ := hne
        have : Has [] it la := by rw [heq]; exact .base hadv
        obtain ⟨_, hm, _⟩ := this
        simp at hm
      · exact ⟨t, ht, heq⟩
    · obtain ⟨it, la, hadv⟩ := hne
      exact absurd hadv (goto_none h hX _)

end ItemSet
end Verif
