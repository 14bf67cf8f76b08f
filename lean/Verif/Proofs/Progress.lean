import Verif.Proofs.ParseOk

/-! Tables with every transition: FIRST has succeeded for every item, so no state
holds a cycle of unit productions, and the parser stops. -/

namespace Verif
open Spec Grammar

namespace ItemSet
variable {g : Grammar}

theorem okAt_of_addsFor (h : GOk g) {d : Nat} {it : Item} {p la : Nat} {adds : List (Item × Nat)}
    (ha : addsFor g d it p la = .ok adds) : ∃ t, g.tokens[la]? = some t ∧ OkAt g d (nextSym g it t) := by
  unfold addsFor getToken at ha
  cases ht : g.tokens[la]? with
  | none => simp [ht] at ha
  | some t =>
    refine ⟨t, rfl, ?_⟩
    by_contra hbad
    obtain ⟨rest, hrest⟩ := beta_cons g it t
    have hX : nextSym g it t ≠ .epsilon := by
      intro he
      exact beta_ne_eps h (List.mem_of_getElem? ht) (it := it) (by rw [hrest, he]; simp)
    simp only [ht, hrest] at ha
    rcases (first_spec h d (nextSym g it t) rest hX).2 hbad with k | ⟨k, _⟩ <;>
      simp [k, bind, Except.bind] at ha

theorem ready_of_adds (h : GOk g) {d : Nat} {set : ItemSet} {adds : List (Item × Nat)}
    (ha : closureAdds g d set = .ok adds) {it : Item} {la : Nat} (hh : Has set it la) : Ready g d it la := by
  intro B hB
  obtain ⟨las, hm, hla⟩ := hh
  obtain ⟨bs, hbs⟩ := flatMapRes_each ha hm
  simp only [hB] at hbs
  cases hl : g.productionIter B with
  | error e => simp [hl, bind, Except.bind] at hbs
  | ok l =>
    simp only [hl, bind, Except.bind] at hbs
    obtain ⟨p, hp, hn⟩ := h.iter_iff.mp ⟨l, hl⟩
    refine ⟨⟨p, hp, hn⟩, ?_⟩
    obtain ⟨q, hq⟩ := List.getElem?_of_mem hp
    obtain ⟨cs, hcs⟩ := flatMapRes_each hbs (((h.iter_ok hl).2.2 q).mpr ⟨p, hq, hn⟩)
    obtain ⟨ds, hds⟩ := flatMapRes_each hcs hla
    exact okAt_of_addsFor h hds

theorem closureLoop_ready (h : GOk g) (d : Nat) : ∀ (fuel : Nat) (set r : ItemSet), WFSet set →
    closureLoop g d fuel set = .ok r → ∀ it la, Has r it la → Ready g d it la
  | fuel, set, r, hw, hr, it, la, hh => by
    unfold closureLoop at hr
    cases ha : closureAdds g d set with
    | error e => simp [ha, bind, Except.bind] at hr
    | ok adds =>
      obtain ⟨k1, k2, k3, k4⟩ := addFold_spec adds set false hw
      simp only [ha, bind, Except.bind] at hr
      cases hflag : (adds.foldl addOne (set, false)).2 with
      | false =>
        obtain ⟨_, k5, _⟩ := k3 hflag
        simp only [hflag, Bool.false_eq_true, if_false, k5, pure, Except.pure, Except.ok.injEq] at hr
        subst hr
        exact ready_of_adds h ha hh
      | true =>
        simp only [hflag, if_true] at hr
        cases fuel with
        | zero => simp at hr
        | succ fuel => exact closureLoop_ready h d fuel _ r k1 hr it la hh

theorem closure_ready (h : GOk g) {d : Nat} {set r : ItemSet} (hw : WFSet set) (hr : closure g d set = .ok r)
    {it : Item} {la : Nat} (hh : Has r it la) : Ready g d it la :=
  closureLoop_ready h d _ set r hw hr it la hh

/-- FIRST has succeeded for every item of the canonical collection. -/
theorem CRes.ready (h : GOk g) {d : Nat} {i0 : ItemSet} {r : List ItemSet}
    (hi : closure g d initial = .ok i0) (hr : CRes g d [i0] r) {s : ItemSet} (hs : s ∈ r) {it : Item} {la : Nat}
    (hh : Has s it la) : Ready g d it la := by
  have hreach := hr.inv.reach s hs
  generalize hI : Has s = I at hreach
  cases hreach with
  | init =>
    obtain ⟨_, h2⟩ := (closure_spec h d wf_initial).1 i0 hi
    refine closure_ready h wf_initial hi ?_
    rw [h2, has_initial, ← hI]
    exact hh
  | @goto I X hI' hne =>
    obtain ⟨s', hs', rfl⟩ := hr.complete h hi hI'
    have hX : X ∈ g.tokens := by
      by_contra hX
      obtain ⟨it, la, ha⟩ := hne
      exact goto_none h hX _ ha
    obtain ⟨t, hgo, _⟩ := hr.closed s' hs' X hX
    obtain ⟨_, k2⟩ := (goto_spec h d (hr.inv.wf s' hs') X).1 t hgo
    refine closure_ready h (advance_spec h X).1 hgo ?_
    rw [k2, ← hI]
    exact hh

theorem okAt_lead (h : GOk g) : ∀ {d : Nat} {X : Sym}, OkAt g d X → ∃ t, Lead (Rule g.prods) X t
  | 0, _, hok => hok.elim
  | d + 1, X, hok => by
    by_cases hX : ∃ A, X = .nonTerm A
    · obtain ⟨A, rfl⟩ := hX
      obtain ⟨⟨p, hp, hn⟩, hall⟩ := hok A rfl
      cases hb : p.inputs with
      | nil => exact absurd hb (h.body p hp)
      | cons Y rhs =>
        have hR : Rule g.prods A (Y :: rhs) := ⟨p, hp, hn, hb⟩
        obtain ⟨t, ht⟩ := okAt_lead h (hall Y rhs hR)
        exact ⟨t, .nt hR ht⟩
    · rw [not_exists] at hX
      exact ⟨X, .term hX⟩

/-- Every nonterminal after a dot is defined, and every production of it is asked for. -/
def Served (g : Grammar) (it : Item) (la : Nat) : Prop :=
  ∀ p A, g.prods[it.1]? = some p → p.inputs[it.2]? = some (.nonTerm A) →
    (∃ (q : Nat) (p' : Production), g.prods[q]? = some p' ∧ p'.name = A) ∧
    ∃ b, ∀ (q : Nat) (p' : Production), g.prods[q]? = some p' → p'.name = A → Asks g it la q b

theorem Ready.served (h : GOk g) {d : Nat} {it : Item} {la la' : Nat} (hr : Ready g d it la) (hla : TermLa g la') :
    Served g it la' := by
  intro p A hp hi
  obtain ⟨⟨p', hp', hn⟩, t, ht, hok⟩ := hr A ((dotName_iff h).mpr ⟨p, hp, hi⟩)
  obtain ⟨q, hq⟩ := List.getElem?_of_mem hp'
  refine ⟨⟨q, p', hq, hn⟩, ?_⟩
  obtain ⟨tb, hl⟩ := okAt_lead h hok
  obtain ⟨rest, hrest⟩ := beta_cons g it t
  have hbm : tb ∈ g.tokens := lead_tok h hl (beta_tok h (List.mem_of_getElem? ht) (it := it) _ (by rw [hrest]; simp))
  obtain ⟨b, hb⟩ := List.getElem?_of_mem hbm
  have hst : Starts (Rule g.prods) (p.inputs.drop (it.2 + 1) ++ [t]) tb := by
    have : beta g it = p.inputs.drop (it.2 + 1) := by simp [beta, h.prodAt_of hp]
    rw [← this, hrest, starts_iff h.not_nil]
    exact hl
  obtain ⟨b', _, _, _, t', tb', k1, _, _, _, k5, k6, k7⟩ :=
    Lalr.asks_any h ⟨p, A, p', t, tb, hp, hi, hq, hn, ht, hst, hb⟩ hla
  rw [hp] at k1; cases k1
  exact ⟨b', fun q p' hq hn => ⟨p, A, p', t', tb', hp, hi, hq, hn, k5, k6, k7⟩⟩

end ItemSet

namespace Lalr
open ItemSet
variable {g : Grammar} {d : Nat} {lr lalr : List ItemSet} {m : List (Nat × Nat)} {action : Table Nat Action}
  {got : Table Str Nat} {look : ItemSet → Sym → Option Nat}

theorem Merged.served (hM : Merged g d lr lalr m) (h : GOk g) {s : ItemSet} (hs : s ∈ lalr) {it : Item} {la : Nat}
    (hh : Has s it la) : Served g it la := by
  have hla := hM.termLa h hs it la hh
  obtain ⟨t, ht, _, hh⟩ := (hM.has s hs it la).mp hh
  obtain ⟨i0, hi, hres⟩ := hM.res
  exact (hres.ready h hi ht hh).served h hla

/-- A state has the items of a closure whose base has no item with the dot in front,
except the augmented one. -/
theorem Merged.kernel (hM : Merged g d lr lalr m) {s : ItemSet} (hs : s ∈ lalr) :
    ∃ K : Item → Nat → Prop, (∀ it la, K it la → it.2 = 0 → it.1 = 0) ∧
      (∀ it la, Has s it la → ∃ la', Clo g K it la') ∧ ∀ it la, Clo g K it la → ∃ la', Has s it la' := by
  obtain ⟨t, ht, hc⟩ := hM.mem hs
  have hcore : ∀ it, (∃ la, Has s it la) ↔ ∃ la, Has t it la := fun it => by
    rw [← mem_core (hM.wf s hs), ← mem_core (hM.lrwf t ht), hc]
  have hreach := hM.lrreach t ht
  generalize hI : Has t = I at hreach
  cases hreach with
  | init =>
    refine ⟨fun it la => it = (0, 0) ∧ la = 0, ?_, fun it la hh => ?_, fun it la hh => ?_⟩
    · rintro it la ⟨rfl, _⟩ _; rfl
    · obtain ⟨la', h'⟩ := (hcore it).mp ⟨la, hh⟩
      exact ⟨la', by rw [← hI]; exact h'⟩
    · exact (hcore it).mpr ⟨la, by rw [hI]; exact hh⟩
  | @goto I X _ _ =>
    refine ⟨Advanced g I X, ?_, fun it la hh => ?_, fun it la hh => ?_⟩
    · rintro it la ⟨d', _, h1, _⟩ h0; omega
    · obtain ⟨la', h'⟩ := (hcore it).mp ⟨la, hh⟩
      exact ⟨la', by rw [← hI]; exact h'⟩
    · exact (hcore it).mpr ⟨la, by rw [hI]; exact hh⟩

/-- The terminals that can begin a symbol after a dot stand after a dot. -/
theorem lead_item (hT : TabOk g lalr action got look) {s : ItemSet} (hs : s ∈ lalr)
    (hsv : ∀ it la, Has s it la → Served g it la) {X t : Sym} (hl : Lead (Rule g.prods) X t) :
    ∀ {it : Item} {la : Nat} {p : Production}, Has s it la → g.prods[it.1]? = some p → p.inputs[it.2]? = some X →
    ∃ it' la' p', Has s it' la' ∧ g.prods[it'.1]? = some p' ∧ p'.inputs[it'.2]? = some t := by
  induction hl with
  | term => intro it la p hh hp hi; exact ⟨it, la, p, hh, hp, hi⟩
  | @nt A Y rhs t hR _ ih =>
    intro it la p hh hp hi
    obtain ⟨p', hp', hn, hb⟩ := hR
    obtain ⟨q, hq⟩ := List.getElem?_of_mem hp'
    obtain ⟨b, hask⟩ := (hsv it la hh p A hp hi).2
    exact ih (hT.closed s hs _ _ _ _ hh (hask q p' hq hn)) hq (by simp [hb])

/-- Two nonterminals on one cycle of unit productions. -/
def OnCycle (g : Grammar) (D E : Str) : Prop :=
  UnitPlus (Rule g.prods) D (.nonTerm E) ∧ UnitPlus (Rule g.prods) E (.nonTerm D)

theorem unit_last {R : Str → List Sym → Prop} {A E : Str} (hu : UnitPlus R A (.nonTerm E)) :
    ∃ E1, R E1 [.nonTerm E] ∧ (E1 = A ∨ UnitPlus R A (.nonTerm E1)) := by
  generalize hX : Sym.nonTerm E = X at hu
  induction hu with
  | one h => subst hX; exact ⟨_, h, .inl rfl⟩
  | @cons A B X h _ ih =>
    obtain ⟨E1, h1, h2⟩ := ih hX
    refine ⟨E1, h1, .inr ?_⟩
    rcases h2 with rfl | h2
    · exact .one h
    · exact .cons h h2

theorem unit_rhs {A E : Str} (hu : UnitPlus (Rule g.prods) A (.nonTerm E)) : ∃ p ∈ g.prods, Sym.nonTerm E ∈ p.inputs := by
  obtain ⟨E1, ⟨p, hp, _, hi⟩, _⟩ := unit_last hu
  exact ⟨p, hp, by simp [hi]⟩

/-- The item through which a cycle is entered. -/
theorem cycle_entry (h : GOk g) {K : Item → Nat → Prop} (hK : ∀ it la, K it la → it.2 = 0 → it.1 = 0) {D : Str}
    {it : Item} {la : Nat} (hc : Clo g K it la) : ∀ {p : Production}, it.2 = 0 → g.prods[it.1]? = some p →
    OnCycle g D p.name → ∃ it0 la0 p0 E, Clo g K it0 la0 ∧ g.prods[it0.1]? = some p0 ∧
      p0.inputs[it0.2]? = some (.nonTerm E) ∧ OnCycle g D E ∧
      ¬ (it0.2 = 0 ∧ (∃ Y, p0.inputs = [Y]) ∧ OnCycle g D p0.name) := by
  induction hc with
  | base hk =>
    intro p h0 hp hcy
    exfalso
    have hz := hK _ _ hk h0
    rw [hz] at hp
    obtain ⟨p', hp', hin⟩ := unit_rhs hcy.1
    have hname : p.name = g.augName := by
      obtain ⟨S, hS⟩ := h.start
      rw [hS] at hp; cases hp; rfl
    rw [hname] at hin
    exact h.fresh p' hp' hin
  | @step it' la' q b hc' ha ih =>
    intro p h0 hp hcy
    obtain ⟨p1, B, p', t, tb, k1, k2, k3, k4, _⟩ := ha
    rw [hp] at k3; cases k3
    by_cases hu : it'.2 = 0 ∧ (∃ Y, p1.inputs = [Y]) ∧ OnCycle g D p1.name
    · exact ih hu.1 k1 hu.2.2
    · exact ⟨it', la', p1, p.name, hc', k1, by rw [k4]; exact k2, hcy, hu⟩

/-- A state with every production of `F` on a lookahead has every production of the
nonterminals `F` rewrites to. -/
theorem chain_items (hT : TabOk g lalr action got look) {s : ItemSet} (hs : s ∈ lalr) {b : Nat} {F : Str} {X : Sym}
    (hu : UnitPlus (Rule g.prods) F X) : ∀ {G : Str}, X = .nonTerm G →
    (∀ q p, g.prods[q]? = some p → p.name = F → Has s (q, 0) b) →
    ∀ q p, g.prods[q]? = some p → p.name = G → Has s (q, 0) b := by
  have one : ∀ {F G : Str}, Rule g.prods F [.nonTerm G] →
      (∀ q p, g.prods[q]? = some p → p.name = F → Has s (q, 0) b) →
      ∀ q p, g.prods[q]? = some p → p.name = G → Has s (q, 0) b := by
    rintro F G ⟨p1, hp1, hn1, hi1⟩ hall q p hq hn
    obtain ⟨q1, hq1⟩ := List.getElem?_of_mem hp1
    have hh := hall q1 p1 hq1 hn1
    obtain ⟨t, ht, hnt⟩ := hT.term s hs _ _ hh
    refine hT.closed s hs _ _ _ _ hh ⟨p1, G, p, t, t, hq1, by simp [hi1], hq, hn, ht, ⟨hnt, [], ?_⟩, ht⟩
    simp only [hi1, Nat.zero_add, List.drop_succ_cons, List.drop_nil, List.nil_append]
    exact .refl
  induction hu with
  | one hR => rintro G rfl; exact one hR
  | cons hR _ ih => rintro G rfl hall; exact ih rfl (one hR hall)

/-- With every transition present, no state has an item of a unit cycle. -/
theorem no_cycle (h : GOk g) (hM : Merged g d lr lalr m) (hT : TabOk g lalr action got look) (hC : Complete g lalr look)
    {s : ItemSet} (hs : s ∈ lalr) {q la : Nat} {p : Production} (hh : Has s (q, 0) la) (hq : g.prods[q]? = some p)
    (hu : UnitPlus (Rule g.prods) p.name (.nonTerm p.name)) : False := by
  obtain ⟨K, hK, hK1, hK2⟩ := hM.kernel hs
  obtain ⟨la', hcl⟩ := hK1 _ _ hh
  obtain ⟨it0, la0, p0, E, hc0, hp0, hi0, hcy, hnot⟩ := cycle_entry (D := p.name) h hK hcl rfl hq ⟨hu, hu⟩
  obtain ⟨l, hh0⟩ := hK2 _ _ hc0
  have hEE : UnitPlus (Rule g.prods) E (.nonTerm E) := hcy.2.trans hcy.1
  obtain ⟨E1, hR1, hE1⟩ := unit_last hEE
  have hE1' : UnitPlus (Rule g.prods) E (.nonTerm E1) := by
    rcases hE1 with rfl | hE1
    · exact hEE
    · exact hE1
  have hcy1 : OnCycle g p.name E1 := ⟨hcy.1.trans hE1', (UnitPlus.one hR1).trans hcy.2⟩
  obtain ⟨p1, hp1, hn1, hi1⟩ := hR1
  obtain ⟨q1, hq1⟩ := List.getElem?_of_mem hp1
  have hq1z : q1 ≠ 0 := by
    rintro rfl
    obtain ⟨S, hS⟩ := h.start
    rw [hS] at hq1; cases hq1
    obtain ⟨p', hp', hin⟩ := unit_rhs hcy1.1
    rw [← hn1] at hin
    exact h.fresh p' hp' hin
  obtain ⟨j, hj⟩ := hC s hs it0 l p0 _ hh0 hp0 hi0
  obtain ⟨s', hs', _, hin, _⟩ := hT.look s hs _ _ hj
  have hs'm := List.mem_of_getElem? hs'
  have hadv0 : Has s' (it0.1, it0.2 + 1) l := hin _ _ (.base ⟨it0.2, p0, rfl, hh0, hp0, hi0⟩)
  have hunit : ∀ b, (∀ q p, g.prods[q]? = some p → p.name = E → Has s (q, 0) b) →
      Calls g (fun x j => look s' x = some j) s' (q1, 1) b (.reduce q1) := by
    intro b hall
    have h1 := chain_items hT hs hE1' rfl hall q1 p1 hq1 hn1
    have h2 : Has s' (q1, 1) b := hin _ _ (.base ⟨0, p1, rfl, h1, hq1, by simp [hi1]⟩)
    exact .reduce (it := (q1, 1)) h2 hq1 (by simp [hi1]) fun hz => hq1z hz.2
  obtain ⟨b, hask⟩ := (hM.served h hs hh0 p0 E hp0 hi0).2
  have hall : ∀ q p, g.prods[q]? = some p → p.name = E → Has s (q, 0) b := fun q p hq hn =>
    hT.closed s hs _ _ _ _ hh0 (hask q p hq hn)
  cases hrest : p0.inputs.drop (it0.2 + 1) with
  | nil =>
    have hlast : p0.inputs[it0.2 + 1]? = none := by
      simpa using hrest
    obtain ⟨t, ht, hnt⟩ := hT.term s hs _ _ hh0
    have hall' : ∀ q p, g.prods[q]? = some p → p.name = E → Has s (q, 0) l := fun q p hq hn =>
      hT.closed s hs _ _ _ _ hh0 ⟨p0, E, p, t, t, hp0, hi0, hq, hn, ht, by rw [hrest]; exact ⟨hnt, [], .refl⟩, ht⟩
    have hother : ∃ a, Calls g (fun x j => look s' x = some j) s' (it0.1, it0.2 + 1) l a := by
      by_cases hz : it0.1 = 0
      · have hl0 : l = 0 := hT.zeroLa s' hs'm (it0.2 + 1) l (by rw [← hz]; exact hadv0)
        subst hl0
        exact ⟨_, .accept hadv0 hz (by rw [← hz]; exact hp0) hlast⟩
      · exact ⟨_, .reduce hadv0 hp0 hlast fun hz' => hz hz'.2⟩
    obtain ⟨a, hother⟩ := hother
    obtain ⟨heq, _⟩ := hT.uniq s' hs'm _ _ _ _ _ hother (hunit l hall')
    simp only [Prod.mk.injEq, Nat.add_eq_right] at heq
    obtain ⟨e1, e2⟩ := heq
    rw [e1, hq1] at hp0; cases hp0
    exact hnot ⟨e2, ⟨_, hi1⟩, by rw [hn1]; exact hcy1⟩
  | cons X rest =>
    have hX : p0.inputs[it0.2 + 1]? = some X := by
      have := congrArg (·[0]?) hrest
      simpa using this
    obtain ⟨q2, p2, hq2, hn2⟩ := (hM.served h hs hh0 p0 E hp0 hi0).1
    obtain ⟨_, _, _, t, tb, k1, k2, _, _, k5, k6, k7⟩ := hask q2 p2 hq2 hn2
    rw [hp0] at k1; cases k1
    rw [hrest, List.cons_append, starts_iff h.not_nil] at k6
    obtain ⟨it', l', p', m1, m2, m3⟩ := lead_item hT hs'm (fun _ _ hh => hM.served h hs'm hh) k6 hadv0 hp0 hX
    obtain ⟨j', hj'⟩ := hC s' hs'm it' l' p' _ m1 m2 m3
    obtain ⟨las, hm', _⟩ := m1
    obtain ⟨_, ha⟩ := hT.uniq s' hs'm _ _ _ _ _
      (Calls.shift (look := fun x j => look s' x = some j) hm' m2 m3 k6.not_nonTerm k7 hj') (hunit b hall)
    cases ha

/-- The unit rules whose items some state has with the dot in front. -/
def Used (g : Grammar) (lalr : List ItemSet) (A : Str) (rhs : List Sym) : Prop :=
  ∃ s ∈ lalr, ∃ (q la : Nat) (p : Production), Has s (q, 0) la ∧ g.prods[q]? = some p ∧ p.name = A ∧ p.inputs = rhs

theorem Used.rule {A : Str} {rhs : List Sym} (hu : Used g lalr A rhs) : Rule g.prods A rhs := by
  obtain ⟨s, _, q, la, p, _, hq, hn, hi⟩ := hu
  exact ⟨p, List.mem_of_getElem? hq, hn, hi⟩

theorem unit_mono {R R' : Str → List Sym → Prop} (hR : ∀ A rhs, R A rhs → R' A rhs) {A : Str} {X : Sym}
    (hu : UnitPlus R A X) : UnitPlus R' A X := by
  induction hu with
  | one h => exact .one (hR _ _ h)
  | cons h _ ih => exact .cons (hR _ _ h) ih

theorem used_acyclic (h : GOk g) (hM : Merged g d lr lalr m) (hT : TabOk g lalr action got look)
    (hC : Complete g lalr look) (A : Str) : ¬ UnitPlus (Used g lalr) A (.nonTerm A) := by
  intro hu
  have hu' := unit_mono (fun _ _ => Used.rule) hu
  have hfirst : ∃ rhs, Used g lalr A rhs := by
    cases hu with
    | one h => exact ⟨_, h⟩
    | cons h _ => exact ⟨_, h⟩
  obtain ⟨_, s, hs, q, la, p, hh, hq, rfl, _⟩ := hfirst
  exact no_cycle h hM hT hC hs hh hq hu'

/-- A production reduced by is one some state has with the dot in front. -/
theorem step_used (h : GOk g) (hT : TabSound g lalr action got look) {toks : List Nat} {st st' : PState} {f : Forest}
    {w : List Nat} {p : Nat} {prod : Production} (hI : Inv g lalr look toks st f w)
    (hs : step g action got toks st = .ok (some st')) (ho : st'.out = st.out ++ [p]) (hp : g.prods[p]? = some prod) :
    Used g lalr prod.name prod.inputs := by
  obtain ⟨s, rest, S, hst, hS⟩ := hI.path.top hT
  have hP := hI.path
  rw [hst] at hP
  cases hact : action.tryIndex s st.a with
  | none => simp [step, hst, hact] at hs
  | some a =>
    cases a with
    | accept => simp [step, hst, hact] at hs
    | shift j =>
      simp only [step, hst, hact, Except.ok.injEq, Option.some.injEq] at hs
      subst hs
      simp at ho
    | reduce p' =>
      have hpp : p' = p := by
        simp only [step, hst, hact] at hs
        split at hs <;> try cases hs
        split at hs <;> try cases hs
        split at hs <;> try cases hs
        split at hs <;> try cases hs
        simpa using ho
      subst hpp
      obtain ⟨S', it, hS', hc⟩ := (hT.act s st.a _).mp hact
      rw [hS] at hS'; cases hS'
      obtain ⟨la, hh, h1⟩ : ∃ la, Has S it la ∧ it.1 = p' := by
        generalize ha : Action.reduce p' = a at hc
        generalize st.a = k at hc
        cases hc with
        | reduce hh => cases ha; exact ⟨_, hh, rfl⟩
        | shift => cases ha
        | accept => cases ha
      subst h1
      obtain ⟨t, _, T, la', _, _, _, k4, k5⟩ := Path.item h hT hp it.2 hP hS hh
      exact ⟨T, List.mem_of_getElem? k4, it.1, la', prod, k5, hp, rfl, rfl⟩

/-! ## where the parser stops -/

theorem step_le {toks : List Nat} {st st' : PState} (hs : step g action got toks st = .ok (some st')) :
    st.i ≤ st'.i := by
  unfold step at hs
  split at hs <;> try cases hs
  split at hs
  · simp only [nextToken, Except.ok.injEq, Option.some.injEq] at hs
    subst hs
    exact Nat.le_succ _
  · split at hs <;> try cases hs
    split at hs <;> try cases hs
    split at hs <;> try cases hs
    split at hs <;> cases hs
    exact Nat.le_refl _
  · cases hs
  · cases hs

theorem runs_le {toks : List Nat} {n : Nat} {st st' : PState} (hr : Runs g action got toks n st st') : st.i ≤ st'.i := by
  induction hr with
  | refl => exact Nat.le_refl _
  | head hs _ ih => exact Nat.le_trans (step_le hs) ih

/-- An iteration looks only at the next token. -/
theorem step_congr {toks toks' : List Nat} {st st' : PState} (hs : step g action got toks st = .ok (some st'))
    (h : st'.i = st.i + 1 → toks'[st.i + 1]? = toks[st.i + 1]?) : step g action got toks' st = .ok (some st') := by
  unfold step at hs ⊢
  split at hs <;> try cases hs
  split at hs
  · simp only [nextToken, Except.ok.injEq, Option.some.injEq] at hs ⊢
    subst hs
    simp only [h rfl]
  · exact hs
  · cases hs
  · cases hs

/-- A run looks only at the tokens up to where it has got. -/
theorem runs_congr {toks toks' : List Nat} {n : Nat} {st st' : PState} (hr : Runs g action got toks n st st') :
    (∀ k ≤ st'.i, toks'[k]? = toks[k]?) → Runs g action got toks' n st st' := by
  induction hr with
  | refl => intro _; exact .refl
  | head hs hr ih =>
    intro h
    have := runs_le hr
    exact .head (step_congr hs fun he => h _ (by omega)) (ih h)

theorem step_error {toks toks' : List Nat} {st : PState} {e : Err} (hs : step g action got toks st = .error e) :
    step g action got toks' st = .error e := by
  unfold step at hs ⊢
  split at hs
  · exact hs
  · split at hs
    · cases hs
    · exact hs
    · cases hs
    · exact hs

/-- A run that fails has gone through a state in which it fails. -/
theorem run_error {toks : List Nat} {e : Err} (he : e ≠ .outOfFuel) : ∀ (fuel : Nat) {st : PState},
    run g action got toks fuel st = .error e →
    ∃ n st', Runs g action got toks n st st' ∧ step g action got toks st' = .error e
  | 0, _, h => by cases h; exact absurd rfl he
  | fuel + 1, st, h => by
    unfold run at h
    cases hs : step g action got toks st with
    | error e' => simp only [hs, Except.error.injEq] at h; subst h; exact ⟨0, st, .refl, hs⟩
    | ok o =>
      cases o with
      | none => simp [hs] at h
      | some st1 =>
        simp only [hs] at h
        obtain ⟨n, st', h1, h2⟩ := run_error he fuel h
        exact ⟨n + 1, st', .head hs h1, h2⟩

theorem _root_.Verif.Spec.Runs.error {toks : List Nat} {n : Nat} {st st' : PState} {e : Err} (hr : Runs g action got toks n st st')
    (hs : step g action got toks st' = .error e) {fuel : Nat} (hf : n < fuel) :
    run g action got toks fuel st = .error e := by
  obtain ⟨k, rfl⟩ : ∃ k, fuel = n + (k + 1) := ⟨fuel - n - 1, by omega⟩
  rw [hr.run]
  simp only [run, hs]

/-- Everything derived from a body has a number. -/
theorem steps_numbered (h : GOk g) {α β : List Sym} (hs : Steps (Rule g.prods) α β) (ha : ∀ x ∈ α, x ∈ g.tokens) :
    ∀ x ∈ β, x ∈ g.tokens := by
  induction hs with
  | refl => exact ha
  | tail _ hst ih =>
    cases hst with
    | mk hR =>
      obtain ⟨p, hp, _, hi⟩ := hR
      intro x hx
      rw [List.append_assoc, List.mem_append, List.mem_append] at hx
      rcases hx with hx | hx | hx
      · exact ih x (by simp [hx])
      · exact (h.tokMem x).mpr (.inr ⟨p, hp, by rw [hi]; exact hx⟩)
      · exact ih x (by simp [hx])

theorem exists_numbers {l : List Sym} : ∀ {ws : List Sym}, (∀ x ∈ ws, x ∈ l) →
    ∃ w : List Nat, w.map (fun k => l[k]?) = ws.map some
  | [], _ => ⟨[], rfl⟩
  | x :: ws, h => by
    obtain ⟨k, hk⟩ := List.getElem?_of_mem (h x List.mem_cons_self)
    obtain ⟨w, hw⟩ := exists_numbers fun y hy => h y (List.mem_cons_of_mem x hy)
    exact ⟨k :: w, by simp [hk, hw]⟩

end Lalr
end Verif
