import Verif.Proofs.TablesMore
import Verif.Proofs.Trees
import Verif.Spec.Run

/-! The parser loop: stack invariant, completeness, termination. -/

namespace Verif
open Spec Grammar

namespace Lalr
open ItemSet
variable {g : Grammar} {lalr : List ItemSet} {action : Table Nat Action} {got : Table Str Nat}
  {look : ItemSet → Sym → Option Nat}

/-- States on the stack, top first, with the symbols between them. -/
inductive Path (lalr : List ItemSet) (look : ItemSet → Sym → Option Nat) : List Nat → List Sym → Prop
  | start : Path lalr look [0] []
  | push {s st α S X j} : Path lalr look (s :: st) α → lalr[s]? = some S → look S X = some j →
      Path lalr look (j :: s :: st) (X :: α)

theorem Path.top (hT : TabSound g lalr action got look) {st : List Nat} {α : List Sym} (hp : Path lalr look st α) :
    ∃ s st' S, st = s :: st' ∧ lalr[s]? = some S := by
  cases hp with
  | start =>
    obtain ⟨s0, h0, _⟩ := hT.init
    exact ⟨0, [], s0, rfl, h0⟩
  | push _ hs hl =>
    obtain ⟨s', h1, _⟩ := hT.lookS _ (List.mem_of_getElem? hs) _ _ hl
    exact ⟨_, _, s', rfl, h1⟩

theorem Path.len {st : List Nat} {α : List Sym} (hp : Path lalr look st α) : st.length = α.length + 1 := by
  induction hp with
  | start => rfl
  | push _ _ _ ih => simp only [List.length_cons] at ih ⊢; omega

/-- State 0 is only at the bottom. -/
theorem Path.zero (h : GOk g) (hT : TabSound g lalr action got look) {st : List Nat} {α : List Sym}
    (hp : Path lalr look (0 :: st) α) : st = [] ∧ α = [] := by
  cases hp with
  | start => exact ⟨rfl, rfl⟩
  | push _ hs hl =>
    exfalso
    obtain ⟨s', h1, h2, _⟩ := hT.lookS _ (List.mem_of_getElem? hs) _ _ hl
    obtain ⟨s0, h0, _, h5⟩ := hT.init
    rw [h0] at h1; cases h1
    obtain ⟨la, hc⟩ := h2 _ _ h5
    obtain ⟨d, p, h6, _⟩ := clo_zero h hc (.inl rfl)
    simp at h6

/-- An item in the top state spells the symbols below its dot. -/
theorem Path.item (h : GOk g) (hT : TabSound g lalr action got look) {p : Nat} {prod : Production}
    (hp : g.prods[p]? = some prod) : ∀ (d : Nat) {s : Nat} {st : List Nat} {α : List Sym} {S : ItemSet} {la : Nat},
    Path lalr look (s :: st) α → lalr[s]? = some S → Has S (p, d) la →
    ∃ t rest T la', (s :: st).drop d = t :: rest ∧ α = (prod.inputs.take d).reverse ++ α.drop d ∧
      Path lalr look (t :: rest) (α.drop d) ∧ lalr[t]? = some T ∧ Has T (p, 0) la'
  | 0, s, st, α, S, la, hP, hs, hh => ⟨s, st, S, la, rfl, by simp, by simpa using hP, hs, hh⟩
  | d + 1, s, st, α, S, la, hP, hs, hh => by
    cases hP with
    | start =>
      obtain ⟨s0, h0, h5, _⟩ := hT.init
      rw [h0] at hs; cases hs
      have := h5 _ _ hh
      simp at this
    | @push s' st' α' S' X _ hP' hs' hl =>
      obtain ⟨S'', h1, h2, _⟩ := hT.lookS _ (List.mem_of_getElem? hs') _ _ hl
      rw [hs] at h1; cases h1
      obtain ⟨la1, hc⟩ := h2 _ _ hh
      obtain ⟨d', prod', h3, h4, h5, h6⟩ := clo_zero h hc (.inr (by simp))
      simp only [Nat.add_right_cancel_iff] at h3
      subst h3
      simp only at h4 h5
      rw [hp] at h5; cases h5
      obtain ⟨t, rest, T, la', k1, k2, k3, k4, k5⟩ := Path.item h hT hp d hP' hs' h4
      refine ⟨t, rest, T, la', by simpa using k1, ?_, by simpa using k3, k4, k5⟩
      rw [List.take_add_one, h6]
      simp only [Option.toList_some, List.reverse_append, List.reverse_cons, List.reverse_nil, List.nil_append,
        List.cons_append, List.drop_succ_cons, List.cons.injEq, true_and]
      exact k2

/-- Invariant of the loop: `f` is the forest built so far, `w` the tokens shifted. -/
structure Inv (g : Grammar) (lalr : List ItemSet) (look : ItemSet → Sym → Option Nat) (toks : List Nat)
    (st : PState) (f : Forest) (w : List Nat) : Prop where
  path : Path lalr look st.stack (f.roots g.prods).reverse
  valid : f.Valid g.prods
  post : f.post = st.out
  yield : w.map (fun k => g.tokens[k]?) = f.yield.map some
  len : w.length = st.i
  get : ∀ k, k < st.i → w[k]? = toks[min k (toks.length - 1)]?
  cur : toks[min st.i (toks.length - 1)]? = some st.a

/-- What one iteration does to the forest. -/
inductive Move (g : Grammar) (toks : List Nat) (st : PState) (f : Forest) (w : List Nat) :
    PState → Forest → List Nat → Prop
  | shift {j t} : g.tokens[st.a]? = some t → IsTerm t →
      Move g toks st f w ⟨j :: st.stack, st.i + 1, (toks[st.i + 1]?).getD st.a, st.out⟩
        (f.append (.leaf t .nil)) (w ++ [st.a])
  | reduce {p : Nat} {prod : Production} {f1 f2 : Forest} {stk : List Nat} : g.prods[p]? = some prod → p ≠ 0 → f = f1.append f2 →
      f2.roots g.prods = prod.inputs →
      Move g toks st f w ⟨stk, st.i, st.a, st.out ++ [p]⟩ (f1.append (.node p f2 .nil)) w

theorem Inv.start {toks : List Nat} {st : PState}
    (hs : startState toks = .ok st) : Inv g lalr look toks st .nil [] := by
  cases toks with
  | nil => cases hs
  | cons a l =>
    cases hs
    exact ⟨.start, trivial, rfl, rfl, rfl, fun k hk => absurd hk (Nat.not_lt_zero k), by simp⟩

/-- One iteration. -/
theorem step_spec (h : GOk g) (hT : TabSound g lalr action got look) {toks : List Nat} {st : PState} {f : Forest}
    {w : List Nat} (hI : Inv g lalr look toks st f w) :
    (∃ st' f' w', step g action got toks st = .ok (some st') ∧ Inv g lalr look toks st' f' w' ∧
      Move g toks st f w st' f' w') ∨
    (step g action got toks st = .ok none ∧ st.a = 0 ∧
      ∃ S, g.prods[0]? = some ⟨g.augName, [.nonTerm S], none, none⟩ ∧ f.roots g.prods = [.nonTerm S]) ∨
    step g action got toks st = .error .invalidToken ∨
    (step g action got toks st = .error .gotoEmpty ∧ ¬ Complete g lalr look) := by
  obtain ⟨s, rest, S, hst, hS⟩ := hI.path.top hT
  have hP := hI.path
  rw [hst] at hP
  have hSm := List.mem_of_getElem? hS
  cases hact : action.tryIndex s st.a with
  | none =>
    refine .inr (.inr (.inl ?_))
    simp only [step, hst, hact]
  | some a =>
    obtain ⟨S', it, hS', hc⟩ := (hT.act s st.a a).mp hact
    rw [hS] at hS'; cases hS'
    generalize hk : st.a = k at hc
    cases hc with
    | @shift las p x _ j hm hp hi hx hk' hl =>
      subst hk
      left
      have hterm := h.isTerm (List.mem_of_getElem? hp) (List.mem_of_getElem? hi) hx
      refine ⟨_, _, _, ?_, ?_, .shift (j := j) hk' hterm⟩
      · simp only [step, hst, hact, nextToken]
      · refine ⟨?_, ?_, ?_, ?_, ?_, ?_, ?_⟩
        · simp only [Forest.roots_append, Forest.roots, List.reverse_append, List.reverse_cons, List.reverse_nil,
            List.nil_append, List.cons_append]
          rw [hst]
          exact .push hP hS hl
        · rw [Forest.valid_append]; exact ⟨hI.valid, hterm, trivial⟩
        · simpa [Forest.post_append, Forest.post] using hI.post
        · simp [Forest.yield_append, Forest.yield, hI.yield, hk']
        · simpa using hI.len
        · intro n hn
          simp only at hn
          by_cases hlt : n < st.i
          · rw [List.getElem?_append_left (by rw [hI.len]; exact hlt)]
            exact hI.get n hlt
          · have : n = st.i := by omega
            subst this
            rw [List.getElem?_append_right (by rw [hI.len]), hI.len, hI.cur]
            simp
        · simp only
          have hcur := hI.cur
          by_cases hlt : st.i + 1 < toks.length
          · rw [Nat.min_eq_left (by omega)]
            simp [hlt]
          · have h1 : toks[st.i + 1]? = none := by simp; omega
            rw [h1, Option.getD_none, ← hcur]
            congr 1
            omega
    | @reduce la p hh hp hi hne =>
      subst hk
      obtain ⟨p', hp', hle⟩ := (hT.rng S hSm _ _ hh).1
      rw [hp] at hp'; cases hp'
      have hd : it.2 = p.inputs.length := by
        have := List.getElem?_eq_none_iff.mp hi; omega
      have h0 : it.1 ≠ 0 := by
        intro h0
        refine hne ⟨?_, h0⟩
        have : it = (0, it.2) := by rw [← h0]
        rw [this] at hh
        exact hT.zeroLa S hSm _ _ hh
      obtain ⟨t, rest', T, la', k1, k2, k3, k4, k5⟩ := Path.item h hT hp it.2 hP hS hh
      rw [hd] at k1 k2 k3
      have hroots : f.roots g.prods = ((f.roots g.prods).reverse.drop p.inputs.length).reverse ++ p.inputs := by
        have := congrArg List.reverse k2
        simpa using this
      obtain ⟨f1, f2, hf, hr1, hr2⟩ := Forest.split f _ _ hroots
      have hlen : ¬ (s :: rest).length < p.inputs.length := by
        have := congrArg List.length k1
        simp only [List.length_drop, List.length_cons] at this ⊢
        omega
      cases hgo : got.tryIndex t p.name with
      | none =>
        refine .inr (.inr (.inr ⟨?_, ?_⟩))
        · simp only [step, hst, hact, hp, hlen, if_false, k1, hgo]
        · intro hC
          obtain ⟨it', la2, p1, p2, a1, a2, a3, a4⟩ := hT.asked T (List.mem_of_getElem? k4) _ _ k5 h0
          rw [hp] at a3; cases a3
          obtain ⟨j, hj⟩ := hC T (List.mem_of_getElem? k4) _ _ _ _ a1 a2 a4
          have := (hT.go t p.name j).mpr ⟨T, k4, hj⟩
          rw [hgo] at this; cases this
      | some j =>
        left
        refine ⟨_, _, _, ?_, ?_, .reduce (stk := j :: t :: rest') hp h0 hf hr2⟩
        · simp only [step, hst, hact, hp, hlen, if_false, k1, hgo]
        · obtain ⟨T', hT', hl⟩ := (hT.go t p.name j).mp hgo
          rw [k4] at hT'; cases hT'
          have hv := hI.valid
          rw [hf, Forest.valid_append] at hv
          refine ⟨?_, ?_, ?_, ?_, hI.len, hI.get, hI.cur⟩
          · simp only [Forest.roots_append, Forest.roots, List.reverse_append, List.reverse_cons, List.reverse_nil,
              List.nil_append, List.cons_append, hp, Option.map_some, Option.getD_some, hr1, List.reverse_reverse]
            exact .push k3 k4 hl
          · rw [Forest.valid_append]
            exact ⟨hv.1, ⟨p, hp, hr2.symm⟩, hv.2, trivial⟩
          · have := hI.post
            rw [hf, Forest.post_append] at this
            simp [Forest.post_append, Forest.post, ← this]
          · have := hI.yield
            rw [hf, Forest.yield_append] at this
            simpa [Forest.yield_append, Forest.yield] using this
    | @accept p hh h0 hp hi =>
      refine .inr (.inl ⟨?_, rfl, ?_⟩)
      · rw [hk] at hact
        simp only [step, hst, hk, hact]
      · obtain ⟨Sn, hSn⟩ := h.start
        rw [hSn] at hp; cases hp
        refine ⟨Sn, hSn, ?_⟩
        obtain ⟨p', hp', hle⟩ := (hT.rng S hSm _ _ hh).1
        rw [h0, hSn] at hp'; cases hp'
        have hit : it = (0, 1) := by
          obtain ⟨a, b⟩ := it
          simp only at h0 hle hi
          subst h0
          have := List.getElem?_eq_none_iff.mp hi
          simp only [List.length_cons, List.length_nil] at this hle
          congr 1; omega
        subst hit
        obtain ⟨t, rest', T, la', k1, k2, k3, k4, k5⟩ := Path.item h hT hSn 1 hP hS hh
        have := hT.zero t T la' k4 k5
        subst this
        obtain ⟨_, hnil⟩ := k3.zero h hT
        rw [hnil] at k2
        have := congrArg List.reverse k2
        simpa using this

/-- All states the loop goes through satisfy the invariant. -/
theorem run_spec (h : GOk g) (hT : TabSound g lalr action got look) {toks : List Nat} :
    ∀ (fuel : Nat) {st : PState} {f : Forest} {w : List Nat}, Inv g lalr look toks st f w →
    (∀ st', run g action got toks fuel st = .ok st' → ∃ f' w', Inv g lalr look toks st' f' w' ∧ st'.a = 0 ∧
      ∃ S, g.prods[0]? = some ⟨g.augName, [.nonTerm S], none, none⟩ ∧ f'.roots g.prods = [.nonTerm S]) ∧
    ∀ e, run g action got toks fuel st = .error e → e = .outOfFuel ∨ e = .invalidToken ∨
      (e = .gotoEmpty ∧ ¬ Complete g lalr look)
  | 0, st, f, w, _ => by
    refine ⟨fun st' hr => ?_, fun e hr => ?_⟩
    · cases hr
    · cases hr; exact .inl rfl
  | fuel + 1, st, f, w, hI => by
    rcases step_spec h hT hI with ⟨st1, f1, w1, h1, h2, _⟩ | ⟨h1, h2, h3⟩ | h1 | ⟨h1, h2⟩
    · have := run_spec h hT fuel h2
      simp only [run, h1]
      exact this
    · simp only [run, h1, Except.ok.injEq, reduceCtorEq, false_implies, implies_true, and_true]
      rintro _ rfl
      exact ⟨f, w, hI, h2, h3⟩
    · simp only [run, h1, reduceCtorEq, false_implies, implies_true, true_and, Except.error.injEq]
      rintro _ rfl
      exact .inr (.inl rfl)
    · simp only [run, h1, reduceCtorEq, false_implies, implies_true, true_and, Except.error.injEq]
      rintro _ rfl
      exact .inr (.inr ⟨rfl, h2⟩)

/-- The tokens of a valid forest are not the end marker. -/
theorem Inv.ne_zero (h : GOk g) {toks : List Nat} {st : PState} {f : Forest}
    {w : List Nat} (hI : Inv g lalr look toks st f w) : ∀ k ∈ w, k ≠ 0 := by
  rintro k hk rfl
  have : g.tokens[0]? ∈ f.yield.map some := by
    rw [← hI.yield]; exact List.mem_map_of_mem (f := fun k => g.tokens[k]?) hk
  rw [h.tok0] at this
  simp only [List.mem_map, Option.some.injEq, exists_eq_right] at this
  exact Forest.yield_term f hI.valid _ this

/-- At the end marker the tokens shifted are the ones before it. -/
theorem Inv.at_eof (h : GOk g) {toks : List Nat} {st : PState} {f : Forest} {w : List Nat}
    (hI : Inv g lalr look toks st f w) (ha : st.a = 0) : ∃ r, toks = w ++ 0 :: r := by
  have hcur := hI.cur
  rw [ha] at hcur
  have hpos : 0 < toks.length := by
    have := (List.getElem?_eq_some_iff.mp hcur).1; omega
  have hle : st.i < toks.length := by
    by_contra hge
    have h1 := hI.get (toks.length - 1) (by omega)
    rw [Nat.min_self] at h1
    rw [Nat.min_eq_right (by omega)] at hcur
    rw [hcur] at h1
    exact hI.ne_zero h 0 (List.mem_of_getElem? h1) rfl
  have hw : w = toks.take st.i := by
    apply List.ext_getElem?
    intro k
    by_cases hk : k < st.i
    · rw [hI.get k hk, Nat.min_eq_left (by omega), List.getElem?_take_of_lt hk]
    · rw [List.getElem?_eq_none (by rw [hI.len]; omega), List.getElem?_eq_none (by simp; omega)]
  rw [Nat.min_eq_left (by omega)] at hcur
  refine ⟨toks.drop (st.i + 1), ?_⟩
  rw [hw]
  obtain ⟨hlt, he⟩ := List.getElem?_eq_some_iff.mp hcur
  rw [← he, ← List.drop_eq_getElem_cons hlt, List.take_append_drop]

/-! ## completeness -/

theorem _root_.Verif.Spec.Runs.trans {toks : List Nat} {n m : Nat} {a b c : PState} (h1 : Runs g action got toks n a b)
    (h2 : Runs g action got toks m b c) : Runs g action got toks (n + m) a c := by
  induction h1 with
  | refl => simpa using h2
  | head hs _ ih =>
    have := Runs.head hs (ih h2)
    rwa [show ∀ n m : Nat, n + 1 + m = n + m + 1 by omega]

theorem _root_.Verif.Spec.Runs.run {toks : List Nat} {n : Nat} {a b : PState} (h1 : Runs g action got toks n a b) (fuel : Nat) :
    run g action got toks (n + fuel) a = run g action got toks fuel b := by
  induction h1 with
  | refl => simp
  | @head n st st1 st2 hs _ ih =>
    rw [show ∀ n m : Nat, n + 1 + m = (n + m) + 1 by omega]
    simp only [Lalr.run, hs, ih]

theorem map_split {α β : Type} {φ : α → β} : ∀ {l : List α} {a b : List β}, l.map φ = a ++ b →
    ∃ l1 l2, l = l1 ++ l2 ∧ l1.map φ = a ∧ l2.map φ = b := by
  intro l a b h
  exact List.map_eq_append_iff.mp h

/-- The tables have the transitions along a forest, from state `s`. -/
def Walk (g : Grammar) (lalr : List ItemSet) (look : ItemSet → Sym → Option Nat) : Nat → Forest → Prop
  | _, .nil => True
  | s, .leaf t f => ∃ S j, lalr[s]? = some S ∧ look S t = some j ∧ Walk g lalr look j f
  | s, .node p kids f => Walk g lalr look s kids ∧ ∃ S j prod, lalr[s]? = some S ∧ g.prods[p]? = some prod ∧
      look S (.nonTerm prod.name) = some j ∧ Walk g lalr look j f

/-- A node of a forest after a dot is asked for, with the next token as lookahead. -/
theorem asks_node (h : GOk g) (hT : TabOk g lalr action got look) {S : ItemSet} (hSm : S ∈ lalr) {p d la q c : Nat}
    {prod prodq : Production} {f : Forest} {ks r r' : List Nat} (hh : Has S (p, d) la) (hp : g.prods[p]? = some prod)
    (hin : prod.inputs[d]? = some (.nonTerm prodq.name)) (hd1 : prod.inputs.drop (d + 1) = f.roots g.prods)
    (hq : g.prods[q]? = some prodq) (hvf : f.Valid g.prods)
    (hk2 : ks.map (fun k => g.tokens[k]?) = f.yield.map some) (hcr : ks ++ la :: r = c :: r') : Asks g (p, d) la q c := by
  obtain ⟨t, ht, htn⟩ := hT.term S hSm _ _ hh
  have hstart : ∃ tc, g.tokens[c]? = some tc ∧
      Starts (Rule g.prods) (prod.inputs.drop (d + 1) ++ [t]) tc := by
    have hsteps := (Forest.steps f hvf).append (Steps.refl (R := Rule g.prods) (α := [t]))
    rw [← hd1] at hsteps
    cases hy : f.yield with
    | nil =>
      rw [hy] at hk2 hsteps
      have : ks = [] := by simpa using hk2
      subst this
      simp only [List.nil_append, List.cons.injEq] at hcr
      rw [← hcr.1]
      exact ⟨t, ht, htn, [], hsteps⟩
    | cons y ys =>
      rw [hy] at hk2 hsteps
      cases ks with
      | nil => simp at hk2
      | cons k ks =>
        simp only [List.map_cons, List.cons.injEq] at hk2
        simp only [List.cons_append, List.cons.injEq] at hcr
        rw [← hcr.1]
        exact ⟨y, hk2.1, (isTerm_ne (Forest.yield_term f hvf y (by simp [hy]))).1, _, hsteps⟩
  obtain ⟨tc, htc, hst'⟩ := hstart
  exact ⟨prod, prodq.name, prodq, t, tc, hp, hin, hq, rfl, ht, hst', htc⟩

/-- Tables with all transitions have those along a forest. -/
theorem walk_of_complete (h : GOk g) (hT : TabOk g lalr action got look) (hC : Complete g lalr look) :
    ∀ (f : Forest) {s : Nat} {S : ItemSet} {p d la : Nat} {prod : Production} {ks : List Nat}, f.Valid g.prods →
      lalr[s]? = some S → Has S (p, d) la → g.prods[p]? = some prod → prod.inputs.drop d = f.roots g.prods →
      ks.map (fun k => g.tokens[k]?) = f.yield.map some → Walk g lalr look s f
  | .nil, _, _, _, _, _, _, _, _, _, _, _, _, _ => trivial
  | .leaf t f, s, S, p, d, la, prod, ks, hv, hS, hh, hp, hd, hks => by
    have hin : prod.inputs[d]? = some t := by
      have := congrArg (·[0]?) hd
      simpa [Forest.roots] using this
    have hd1 : prod.inputs.drop (d + 1) = f.roots g.prods := by
      rw [← List.tail_drop, hd]; rfl
    have hSm := List.mem_of_getElem? hS
    obtain ⟨j, hj⟩ := hC S hSm _ _ _ _ hh hp hin
    cases ks with
    | nil => simp [Forest.yield] at hks
    | cons k ks =>
      simp only [Forest.yield, List.map_cons, List.cons.injEq] at hks
      obtain ⟨S', h1, _, h3, _⟩ := hT.look S hSm _ _ hj
      exact ⟨S, j, hS, hj, walk_of_complete h hT hC f hv.2 h1 (h3 _ _ (.base ⟨d, prod, rfl, hh, hp, hin⟩)) hp hd1 hks.2⟩
  | .node q kids f, s, S, p, d, la, prod, ks, hv, hS, hh, hp, hd, hks => by
    obtain ⟨⟨prodq, hq, hqi⟩, hvk, hvf⟩ := hv
    have hin : prod.inputs[d]? = some (.nonTerm prodq.name) := by
      have := congrArg (·[0]?) hd
      simpa [Forest.roots, hq] using this
    have hd1 : prod.inputs.drop (d + 1) = f.roots g.prods := by
      rw [← List.tail_drop, hd]; rfl
    have hSm := List.mem_of_getElem? hS
    simp only [Forest.yield, List.map_append] at hks
    obtain ⟨ks1, ks2, rfl, hk1, hk2⟩ := map_split hks
    obtain ⟨c, r', hcr⟩ : ∃ c r', ks2 ++ [la] = c :: r' := by
      cases ks2 with
      | nil => exact ⟨_, _, rfl⟩
      | cons k ks2 => exact ⟨_, _, rfl⟩
    have hhq : Has S (q, 0) c := hT.closed S hSm _ _ _ _ hh (asks_node h hT hSm hh hp hin hd1 hq hvf hk2 hcr)
    obtain ⟨j, hj⟩ := hC S hSm _ _ _ _ hh hp hin
    obtain ⟨S', h1, _, h3, _⟩ := hT.look S hSm _ _ hj
    exact ⟨walk_of_complete h hT hC kids hvk hS hhq hq (by rw [List.drop_zero]; exact hqi) hk1, S, j, prodq, hS, hq, hj,
      walk_of_complete h hT hC f hvf h1 (h3 _ _ (.base ⟨d, prod, rfl, hh, hp, hin⟩)) hp hd1 hk2⟩

/-- The parser follows a forest along which the tables have the transitions. -/
theorem follow (h : GOk g) (hT : TabOk g lalr action got look) {toks : List Nat} :
    ∀ (f : Forest) {st : PState} {s : Nat} {rest : List Nat} {S : ItemSet} {p d la : Nat} {prod : Production}
      {ks r : List Nat}, Walk g lalr look s f → f.Valid g.prods → st.stack = s :: rest → lalr[s]? = some S → Has S (p, d) la →
      g.prods[p]? = some prod → prod.inputs.drop d = f.roots g.prods →
      ks.map (fun k => g.tokens[k]?) = f.yield.map some → toks.drop st.i = ks ++ la :: r →
      toks[st.i]? = some st.a →
    ∃ st' new s' S', Runs g action got toks (f.yield.length + f.post.length) st st' ∧ st'.out = st.out ++ f.post ∧
      toks.drop st'.i = la :: r ∧ toks[st'.i]? = some st'.a ∧ st'.stack = new ++ s :: rest ∧
      new.length = (f.roots g.prods).length ∧ (∃ tl, st'.stack = s' :: tl) ∧ lalr[s']? = some S' ∧
      Has S' (p, prod.inputs.length) la
  | .nil, st, s, rest, S, p, d, la, prod, ks, r, hW, hv, hst, hS, hh, hp, hd, hks, htk, hcur => by
    have hks' : ks = [] := by simpa [Forest.yield] using hks
    subst hks'
    obtain ⟨p', hp', hle⟩ := (hT.rng S (List.mem_of_getElem? hS) _ _ hh).1
    rw [hp] at hp'; cases hp'
    have hd' : d = prod.inputs.length := by
      simp only [Forest.roots, List.drop_eq_nil_iff] at hd
      simp only at hle
      omega
    subst hd'
    exact ⟨st, [], s, S, .refl, by simp [Forest.post], by simpa using htk, hcur, hst, rfl, ⟨rest, hst⟩, hS, hh⟩
  | .leaf t f, st, s, rest, S, p, d, la, prod, ks, r, hW, hv, hst, hS, hh, hp, hd, hks, htk, hcur => by
    have hin : prod.inputs[d]? = some t := by
      have := congrArg (·[0]?) hd
      simpa [Forest.roots] using this
    have hd1 : prod.inputs.drop (d + 1) = f.roots g.prods := by
      rw [← List.tail_drop, hd]; rfl
    have hSm := List.mem_of_getElem? hS
    obtain ⟨_, j, hS', hj, hW⟩ := hW
    rw [hS] at hS'; cases hS'
    cases ks with
    | nil => simp [Forest.yield] at hks
    | cons k ks =>
      simp only [Forest.yield, List.map_cons, List.cons.injEq] at hks
      have hka : st.a = k := by
        have := congrArg (·[0]?) htk
        simp only [List.getElem?_drop, Nat.add_zero, List.cons_append, List.getElem?_cons_zero] at this
        rw [hcur] at this
        exact Option.some.inj this
      have hact : action.tryIndex s st.a = some (.shift j) := by
        rw [hT.act]
        obtain ⟨las, hm, _⟩ := hh
        exact ⟨S, (p, d), hS, .shift hm hp hin (isTerm_ne hv.1).1 (by rw [hka]; exact hks.1) hj⟩
      have hdrop : toks.drop (st.i + 1) = ks ++ la :: r := by
        rw [← List.tail_drop, htk]; rfl
      have hne : toks[st.i + 1]? = some ((toks[st.i + 1]?).getD st.a) := by
        have := congrArg (·[0]?) hdrop
        simp only [List.getElem?_drop, Nat.add_zero] at this
        cases ks with
        | nil => simp only [List.nil_append, List.getElem?_cons_zero] at this; rw [this]; rfl
        | cons k' ks => simp only [List.cons_append, List.getElem?_cons_zero] at this; rw [this]; rfl
      obtain ⟨S', h1, _, h3, _⟩ := hT.look S hSm _ _ hj
      have hh' : Has S' (p, d + 1) la := h3 _ _ (.base ⟨d, prod, rfl, hh, hp, hin⟩)
      obtain ⟨st', new, s', S'', k1, k2, k3, k4, k5, k6, k7⟩ := follow h hT (toks := toks) f
        (st := ⟨j :: s :: rest, st.i + 1, (toks[st.i + 1]?).getD st.a, st.out⟩) hW hv.2 rfl h1 hh' hp hd1 hks.2 hdrop hne
      refine ⟨st', new ++ [j], s', S'', ?_, k2, k3, k4, by simpa using k5, by simpa [Forest.roots] using k6, k7⟩
      have : (Forest.leaf t f).yield.length + (Forest.leaf t f).post.length = f.yield.length + f.post.length + 1 := by
        simp [Forest.yield, Forest.post]; omega
      rw [this]
      refine .head ?_ k1
      simp only [step, hst, hact, nextToken]
  | .node q kids f, st, s, rest, S, p, d, la, prod, ks, r, hW, hv, hst, hS, hh, hp, hd, hks, htk, hcur => by
    obtain ⟨⟨prodq, hq, hqi⟩, hvk, hvf⟩ := hv
    obtain ⟨hWk, _, j, _, hS', hq', hj, hW⟩ := hW
    rw [hS] at hS'; cases hS'
    rw [hq] at hq'; cases hq'
    have hin : prod.inputs[d]? = some (.nonTerm prodq.name) := by
      have := congrArg (·[0]?) hd
      simpa [Forest.roots, hq] using this
    have hd1 : prod.inputs.drop (d + 1) = f.roots g.prods := by
      rw [← List.tail_drop, hd]; rfl
    have hSm := List.mem_of_getElem? hS
    simp only [Forest.yield, List.map_append] at hks
    obtain ⟨ks1, ks2, rfl, hk1, hk2⟩ := map_split hks
    -- lookahead for the children
    obtain ⟨c, r', hcr⟩ : ∃ c r', ks2 ++ la :: r = c :: r' := by
      cases ks2 with
      | nil => exact ⟨_, _, rfl⟩
      | cons k ks2 => exact ⟨_, _, rfl⟩
    have hask : Asks g (p, d) la q c := asks_node h hT hSm hh hp hin hd1 hq hvf hk2 hcr
    have hhq : Has S (q, 0) c := hT.closed S hSm _ _ _ _ hh hask
    obtain ⟨st1, new1, s1, S1, a1, a2, a3, a4, a5, a6, ⟨tl, a7⟩, a8, a9⟩ := follow h hT (toks := toks) kids
      hWk hvk hst hS hhq hq (by rw [List.drop_zero]; exact hqi) hk1
      (by rw [htk, List.append_assoc, hcr]) hcur
    -- reduce
    have hq0 : q ≠ 0 := asks_ne_zero h hask
    have hac : st1.a = c := by
      have := congrArg (·[0]?) a3
      simp only [List.getElem?_drop, Nat.add_zero, List.getElem?_cons_zero] at this
      rw [a4] at this
      exact Option.some.inj this
    have hact : action.tryIndex s1 st1.a = some (.reduce q) := by
      rw [hT.act, hac]
      exact ⟨S1, (q, prodq.inputs.length), a8, .reduce a9 hq (by simp) fun hx => hq0 hx.2⟩
    have hnl : new1.length = prodq.inputs.length := by rw [a6, hqi]
    have hdrop : st1.stack.drop prodq.inputs.length = s :: rest := by rw [a5, ← hnl]; simp
    have hgo : got.tryIndex s prodq.name = some j := (hT.go _ _ _).mpr ⟨S, hS, hj⟩
    have hstep : step g action got toks st1 =
        .ok (some ⟨j :: s :: rest, st1.i, st1.a, st1.out ++ [q]⟩) := by
      have hle : ¬ st1.stack.length < prodq.inputs.length := by rw [a5, ← hnl]; simp
      simp only [step]
      rw [a7] at hdrop hle ⊢
      simp only [hact, hq, hle, if_false, hdrop, hgo]
    obtain ⟨S', h1, _, h3, _⟩ := hT.look S hSm _ _ hj
    have hh' : Has S' (p, d + 1) la := h3 _ _ (.base ⟨d, prod, rfl, hh, hp, hin⟩)
    obtain ⟨st2, new2, s2, S2, b1, b2, b3, b4, b5, b6, b7⟩ := follow h hT (toks := toks) f
      (st := ⟨j :: s :: rest, st1.i, st1.a, st1.out ++ [q]⟩) hW hvf rfl h1 hh' hp hd1 hk2
      (by simp only; rw [a3, hcr]) a4
    refine ⟨st2, new2 ++ [j], s2, S2, ?_, ?_, b3, b4, by simpa using b5, by simpa [Forest.roots] using b6, b7⟩
    · have hn : (Forest.node q kids f).yield.length + (Forest.node q kids f).post.length =
          (kids.yield.length + kids.post.length) + ((f.yield.length + f.post.length) + 1) := by
        simp [Forest.yield, Forest.post]; omega
      rw [hn]
      exact a1.trans (.head hstep b1)
    · rw [b2, a2]; simp [Forest.post]

/-- Every tree of the start symbol along which the tables have the transitions is found, in as many
iterations as it has nodes and leaves, plus one. -/
theorem follow_walk (h : GOk g) (hT : TabOk g lalr action got look) {f : Forest} (hW : Walk g lalr look 0 f)
    {S : Str} (hS : g.prods[0]? = some ⟨g.augName, [.nonTerm S], none, none⟩) (hv : f.Valid g.prods)
    (hr : f.roots g.prods = [.nonTerm S]) {w r : List Nat}
    (hw : w.map (fun k => g.tokens[k]?) = f.yield.map some) {fuel : Nat}
    (hfu : f.yield.length + f.post.length < fuel) :
    parseIdx g action got fuel (w ++ 0 :: r) = .ok f.post := by
  obtain ⟨s0, h0, _, h02⟩ := hT.init
  have hstart : ∃ a, startState (w ++ 0 :: r) = .ok ⟨[0], 0, a, []⟩ ∧ (w ++ 0 :: r)[0]? = some a := by
    cases w with
    | nil => exact ⟨0, rfl, rfl⟩
    | cons k w => exact ⟨k, rfl, rfl⟩
  obtain ⟨a, hs1, hs2⟩ := hstart
  obtain ⟨st', new, s', S', k1, k2, k3, k4, k5, k6, ⟨tl, k7⟩, k8, k9⟩ :=
    follow h hT (toks := w ++ 0 :: r) f (st := ⟨[0], 0, a, []⟩) (p := 0) (d := 0) (la := 0) hW hv rfl h0 h02 hS
      (r := r) (by rw [hr]; rfl) hw (by simp) hs2
  obtain ⟨n, hn⟩ : ∃ n, fuel = (f.yield.length + f.post.length) + (n + 1) := ⟨fuel - (f.yield.length + f.post.length) - 1, by omega⟩
  have hac : st'.a = 0 := by
    have := congrArg (·[0]?) k3
    simp only [List.getElem?_drop, Nat.add_zero, List.getElem?_cons_zero] at this
    rw [k4] at this
    exact Option.some.inj this
  have hact : action.tryIndex s' st'.a = some .accept := by
    rw [hT.act, hac]
    exact ⟨S', (0, 1), k8, .accept k9 rfl hS (by simp)⟩
  have hstep : step g action got (w ++ 0 :: r) st' = .ok none := by
    simp only [step, k7, hact]
  unfold parseIdx
  simp only [hs1, bind, Except.bind]
  rw [hn, k1.run]
  simp only [run, hstep, pure, Except.pure, k2, List.nil_append]

/-- Every tree of the start symbol is found if the tables have every transition. -/
theorem follow_start (h : GOk g) (hT : TabOk g lalr action got look) (hC : Complete g lalr look) {f : Forest}
    {S : Str} (hS : g.prods[0]? = some ⟨g.augName, [.nonTerm S], none, none⟩) (hv : f.Valid g.prods)
    (hr : f.roots g.prods = [.nonTerm S]) {w r : List Nat}
    (hw : w.map (fun k => g.tokens[k]?) = f.yield.map some) {fuel : Nat}
    (hfu : f.yield.length + f.post.length < fuel) :
    parseIdx g action got fuel (w ++ 0 :: r) = .ok f.post := by
  obtain ⟨s0, h0, _, h02⟩ := hT.init
  exact follow_walk h hT (walk_of_complete h hT hC f hv h0 h02 hS (by rw [hr]; rfl) hw) hS hv hr hw hfu

/-! ## what an accepted input walks along -/

/-- The state reached from `s` over symbols. -/
def goAll (lalr : List ItemSet) (look : ItemSet → Sym → Option Nat) : Nat → List Sym → Option Nat
  | s, [] => some s
  | s, X :: α => (lalr[s]?).bind fun S => (look S X).bind fun j => goAll lalr look j α

theorem goAll_append (s : Nat) : ∀ α β : List Sym, goAll lalr look s (α ++ β) =
    (goAll lalr look s α).bind fun t => goAll lalr look t β := by
  intro α
  induction α generalizing s with
  | nil => intro β; rfl
  | cons X α ih =>
    intro β
    simp only [List.cons_append, goAll]
    cases lalr[s]? with
    | none => rfl
    | some S =>
      simp only [Option.bind_some]
      cases look S X with
      | none => rfl
      | some j => simp only [Option.bind_some]; exact ih j β

theorem Path.goAll {st : List Nat} {α : List Sym} (hP : Path lalr look st α) :
    ∃ s rest, st = s :: rest ∧ goAll lalr look 0 α.reverse = some s := by
  induction hP with
  | start => exact ⟨0, [], rfl, rfl⟩
  | @push s st α S X j hP hs hl ih =>
    obtain ⟨s', rest, he, hg⟩ := ih
    cases he
    refine ⟨_, _, rfl, ?_⟩
    simp [goAll_append, hg, Lalr.goAll, hs, hl]

theorem walk_append (f2 : Forest) : ∀ (f1 : Forest) (s : Nat), Walk g lalr look s (f1.append f2) ↔
    Walk g lalr look s f1 ∧ ∃ t, goAll lalr look s (f1.roots g.prods) = some t ∧ Walk g lalr look t f2
  | .nil, s => by simp [Forest.append, Walk, Forest.roots, goAll]
  | .leaf t f, s => by
    simp only [Forest.append, Walk, Forest.roots, goAll]
    constructor
    · rintro ⟨S, j, h1, h2, h3⟩
      obtain ⟨h4, t', h5, h6⟩ := (walk_append f2 f j).mp h3
      exact ⟨⟨S, j, h1, h2, h4⟩, t', by simp [h1, h2, h5], h6⟩
    · rintro ⟨⟨S, j, h1, h2, h4⟩, t', h5, h6⟩
      refine ⟨S, j, h1, h2, (walk_append f2 f j).mpr ⟨h4, t', ?_, h6⟩⟩
      simpa [h1, h2] using h5
  | .node p k f, s => by
    simp only [Forest.append, Walk, Forest.roots, goAll]
    constructor
    · rintro ⟨h0, S, j, prod, h1, hp, h2, h3⟩
      obtain ⟨h4, t', h5, h6⟩ := (walk_append f2 f j).mp h3
      exact ⟨⟨h0, S, j, prod, h1, hp, h2, h4⟩, t', by simp [h1, hp, h2, h5], h6⟩
    · rintro ⟨⟨h0, S, j, prod, h1, hp, h2, h4⟩, t', h5, h6⟩
      refine ⟨h0, S, j, prod, h1, hp, h2, (walk_append f2 f j).mpr ⟨h4, t', ?_, h6⟩⟩
      simpa [h1, hp, h2] using h5

/-- One iteration keeps to the transitions of the tables. -/
theorem Move.walk {toks : List Nat} {st st' : PState} {f f' : Forest} {w w' : List Nat}
    (hm : Move g toks st f w st' f' w') (hI : Inv g lalr look toks st' f' w')
    (hW : Walk g lalr look 0 f) : Walk g lalr look 0 f' := by
  obtain ⟨s, rest, _, hgo⟩ := hI.path.goAll
  rw [List.reverse_reverse] at hgo
  cases hm with
  | @shift j t ht hterm =>
    rw [Forest.roots_append, goAll_append] at hgo
    obtain ⟨u, hu, h1⟩ := Option.bind_eq_some_iff.mp hgo
    simp only [Forest.roots, goAll] at h1
    obtain ⟨S, hS, h1⟩ := Option.bind_eq_some_iff.mp h1
    obtain ⟨i, hi, _⟩ := Option.bind_eq_some_iff.mp h1
    exact (walk_append _ _ _).mpr ⟨hW, u, hu, S, i, hS, hi, trivial⟩
  | @reduce p prod f1 f2 stk hp hp0 hf hr =>
    subst hf
    rw [Forest.roots_append, goAll_append] at hgo
    obtain ⟨u, hu, h1⟩ := Option.bind_eq_some_iff.mp hgo
    simp only [Forest.roots, goAll, hp, Option.map_some, Option.getD_some] at h1
    obtain ⟨S, hS, h1⟩ := Option.bind_eq_some_iff.mp h1
    obtain ⟨i, hi, _⟩ := Option.bind_eq_some_iff.mp h1
    obtain ⟨hW1, u', hu', hW2⟩ := (walk_append _ _ _).mp hW
    rw [hu] at hu'; cases hu'
    exact (walk_append _ _ _).mpr ⟨hW1, u, hu, hW2, S, i, prod, hS, hp, hi, trivial⟩

/-- The forest of an accepted input follows transitions of the tables. -/
theorem run_walk (h : GOk g) (hT : TabSound g lalr action got look) {toks : List Nat} :
    ∀ (fuel : Nat) {st : PState} {f : Forest} {w : List Nat}, Inv g lalr look toks st f w →
    Walk g lalr look 0 f → ∀ st', run g action got toks fuel st = .ok st' →
    ∃ f' w', Inv g lalr look toks st' f' w' ∧ Walk g lalr look 0 f' ∧ st'.a = 0 ∧
      ∃ S, g.prods[0]? = some ⟨g.augName, [.nonTerm S], none, none⟩ ∧ f'.roots g.prods = [.nonTerm S]
  | 0, st, f, w, _, _, st', hr => by cases hr
  | fuel + 1, st, f, w, hI, hW, st', hr => by
    rcases step_spec h hT hI with ⟨st1, f1, w1, h1, h2, h3⟩ | ⟨h1, h2, h3⟩ | h1 | ⟨h1, h2⟩
    · simp only [run, h1] at hr
      exact run_walk h hT fuel h2 (h3.walk h2 hW) st' hr
    · simp only [run, h1, Except.ok.injEq] at hr
      subst hr
      exact ⟨f, w, hI, hW, h2, h3⟩
    · simp only [run, h1, reduceCtorEq] at hr
    · simp only [run, h1, reduceCtorEq] at hr

/-! ## termination -/

theorem _root_.Verif.Spec.UnitPlus.trans {R : Str → List Sym → Prop} {A B : Str} {X : Sym} (h1 : UnitPlus R A (.nonTerm B))
    (h2 : UnitPlus R B X) : UnitPlus R A X := by
  generalize hY : Sym.nonTerm B = Y at h1
  induction h1 with
  | one h => subst hY; exact .cons h h2
  | cons h _ ih => exact .cons h (ih hY)

open Classical in
/-- Number of productions whose left side rewrites to `X` by the unit rules in `R`. -/
noncomputable def rank (R : Str → List Sym → Prop) (g : Grammar) (X : Sym) : Nat :=
  g.prods.countP fun p => decide (UnitPlus R p.name X)

variable {R : Str → List Sym → Prop}

theorem rank_le (X : Sym) : rank R g X ≤ g.prods.length := List.countP_le_length

theorem rank_lt (hu : ∀ A, ¬ UnitPlus R A (.nonTerm A)) {p : Production} (hp : p ∈ g.prods) {X : Sym}
    (hi : R p.name [X]) : rank R g (.nonTerm p.name) < rank R g X := by
  have hR : UnitPlus R p.name X := .one hi
  refine countP_lt (fun q _ hq => ?_) ⟨p, hp, ?_, ?_⟩
  · simp only [decide_eq_true_eq] at hq ⊢
    exact hq.trans hR
  · simpa using hu p.name
  · simpa using hR

/-- The decreasing measure. -/
noncomputable def measure (R : Str → List Sym → Prop) (g : Grammar) (n i : Nat) (f : Forest) : Nat :=
  (2 * (n - i) + (f.roots g.prods).length) * (g.prods.length + 1) +
    match (f.roots g.prods).getLast? with
    | none => g.prods.length
    | some X => rank R g X

theorem measure_le (n i : Nat) (f : Forest) :
    measure R g n i f ≤ (2 * (n - i) + (f.roots g.prods).length) * (g.prods.length + 1) + g.prods.length := by
  unfold measure
  split
  · exact Nat.le_refl _
  · exact Nat.add_le_add_left (rank_le _) _

theorem measure_ge (n i : Nat) (f : Forest) :
    (2 * (n - i) + (f.roots g.prods).length) * (g.prods.length + 1) ≤ measure R g n i f := Nat.le_add_right _ _

theorem measure_lt_of {n i i' : Nat} {f f' : Forest}
    (h : 2 * (n - i') + (f'.roots g.prods).length < 2 * (n - i) + (f.roots g.prods).length) :
    measure R g n i' f' < measure R g n i f := by
  have h1 := measure_le (R := R) (g := g) n i' f'
  have h2 := measure_ge (R := R) (g := g) n i f
  have h3 : (2 * (n - i') + (f'.roots g.prods).length + 1) * (g.prods.length + 1) ≤
      (2 * (n - i) + (f.roots g.prods).length) * (g.prods.length + 1) := Nat.mul_le_mul_right _ h
  rw [Nat.add_mul] at h3
  omega

/-- Every iteration decreases the measure. -/
theorem Move.decreases (h : GOk g) (hu : ∀ A, ¬ UnitPlus R A (.nonTerm A)) {toks : List Nat}
    {st st' : PState} {f f' : Forest} {w w' : List Nat} {n : Nat} (hn : toks[n]? = some 0)
    (hR : ∀ (p : Nat) (prod : Production) (X : Sym), st'.out = st.out ++ [p] → g.prods[p]? = some prod → prod.inputs = [X] → R prod.name [X])
    (hI : Inv g lalr look toks st f w) (hi : st.i ≤ n) (hm : Move g toks st f w st' f' w') :
    measure R g n st'.i f' < measure R g n st.i f ∧ st'.i ≤ n := by
  cases hm with
  | @shift j t h1 h2 =>
    have hlt : st.i < n := by
      by_contra hge
      have : st.i = n := by omega
      have hcur := hI.cur
      have := (List.getElem?_eq_some_iff.mp hn).1
      rw [Nat.min_eq_left (by omega), show st.i = n by omega, hn] at hcur
      rw [← Option.some.inj hcur, h.tok0] at h1
      cases h1
      exact h2
    refine ⟨measure_lt_of ?_, hlt⟩
    simp only [Forest.roots_append, Forest.roots, List.length_append, List.length_cons, List.length_nil]
    omega
  | @reduce p prod f1 f2 stk h1 h2 h3 h4 =>
    refine ⟨?_, hi⟩
    have hb := h.body prod (List.mem_of_getElem? h1)
    subst h3
    by_cases hlen : 1 < prod.inputs.length
    · apply measure_lt_of
      simp only [Forest.roots_append, Forest.roots, List.length_append, List.length_cons, List.length_nil, h4]
      omega
    · obtain ⟨X, hX⟩ : ∃ X, prod.inputs = [X] := by
        match hpi : prod.inputs with
        | [] => exact absurd hpi hb
        | [X] => exact ⟨X, rfl⟩
        | _ :: _ :: _ => rw [hpi] at hlen; simp at hlen
      have := rank_lt hu (List.mem_of_getElem? h1) (hR p prod X rfl h1 hX)
      simp only [measure, Forest.roots_append, Forest.roots, h4, hX, h1, Option.map_some, Option.getD_some,
        List.length_append, List.length_cons, List.length_nil, List.getLast?_append, List.getLast?_singleton,
        Option.some_or]
      omega

/-- Enough fuel. -/
theorem run_terminates (h : GOk g) (hT : TabSound g lalr action got look)
    (hu : ∀ A, ¬ UnitPlus R A (.nonTerm A)) {toks : List Nat} {n : Nat} (hn : toks[n]? = some 0)
    (hR : ∀ (st st' : PState) (f : Forest) (w : List Nat) (p : Nat) (prod : Production) (X : Sym),
      Inv g lalr look toks st f w → step g action got toks st = .ok (some st') → st'.out = st.out ++ [p] →
      g.prods[p]? = some prod → prod.inputs = [X] → R prod.name [X]) :
    ∀ (fuel : Nat) {st : PState} {f : Forest} {w : List Nat}, Inv g lalr look toks st f w → st.i ≤ n →
    measure R g n st.i f < fuel → run g action got toks fuel st ≠ .error .outOfFuel
  | 0, _, _, _, _, _, hm => by omega
  | fuel + 1, st, f, w, hI, hi, hm => by
    rcases step_spec h hT hI with ⟨st1, f1, w1, h1, h2, h3⟩ | ⟨h1, _⟩ | h1 | ⟨h1, _⟩
    · obtain ⟨a, b⟩ := h3.decreases h hu hn (hR _ _ _ _ · · · hI h1) hI hi
      simp only [run, h1]
      exact run_terminates h hT hu hn hR fuel h2 b (by omega)
    · simp [run, h1]
    · simp [run, h1]
    · simp [run, h1]

/-! ## viable prefixes -/

/-- The augmented start symbol derives `β A δ`, and the item `A → γ·…` follows `βγ`. -/
def Viable (g : Grammar) (S : Str) (α : List Sym) (it : Item) : Prop :=
  ∃ p β δ, g.prods[it.1]? = some p ∧ α = β ++ p.inputs.take it.2 ∧
    Steps (Rule g.prods) [.nonTerm S] (β ++ p.inputs ++ δ)

theorem clo_viable {S : Str} {α : List Sym} {I : Item → Nat → Prop} (hI : ∀ it la, I it la → Viable g S α it)
    {it : Item} {la : Nat} (hc : Clo g I it la) : Viable g S α it := by
  induction hc with
  | base h => exact hI _ _ h
  | @step it la q b _ ha ih =>
    obtain ⟨p, β, δ, h1, h2, h3⟩ := ih
    obtain ⟨p', B, pq, _, _, k1, k2, k3, k4, _⟩ := ha
    rw [h1] at k1; cases k1
    refine ⟨pq, β ++ p.inputs.take it.2, p.inputs.drop (it.2 + 1) ++ δ, k3, by simp [h2], h3.trans ?_⟩
    have hsplit : p.inputs = p.inputs.take it.2 ++ .nonTerm B :: p.inputs.drop (it.2 + 1) := by
      obtain ⟨hlt, he⟩ := List.getElem?_eq_some_iff.mp k2
      rw [← he, ← List.drop_eq_getElem_cons hlt, List.take_append_drop]
    have hst : Step (Rule g.prods) ((β ++ p.inputs.take it.2) ++ .nonTerm B :: (p.inputs.drop (it.2 + 1) ++ δ))
        ((β ++ p.inputs.take it.2) ++ pq.inputs ++ (p.inputs.drop (it.2 + 1) ++ δ)) :=
      .mk ⟨pq, List.mem_of_getElem? k3, k4, rfl⟩
    have : β ++ p.inputs ++ δ = (β ++ p.inputs.take it.2) ++ .nonTerm B :: (p.inputs.drop (it.2 + 1) ++ δ) := by
      conv => lhs; rw [hsplit]
      simp
    rw [this]
    exact .tail .refl hst

theorem Path.viable (hT : TabSound g lalr action got look) {S : Str}
    (hS : g.prods[0]? = some ⟨g.augName, [.nonTerm S], none, none⟩) {st : List Nat} {α : List Sym}
    (hp : Path lalr look st α) : ∀ {s : Nat} {tl : List Nat} {T : ItemSet}, st = s :: tl → lalr[s]? = some T →
    ∀ it la, Has T it la → Viable g S α.reverse it := by
  induction hp with
  | start =>
    intro s tl T he hT' it la hh
    cases he
    obtain ⟨la', hc⟩ := hT.init0 T hT' it la hh
    refine clo_viable ?_ hc
    rintro it la ⟨rfl, _⟩
    exact ⟨_, [], [], hS, by simp, by simpa using Steps.refl⟩
  | @push s st α S' X j _ hs hl ih =>
    intro s1 tl T he hT' it la hh
    cases he
    obtain ⟨S'', h1, h2, _⟩ := hT.lookS _ (List.mem_of_getElem? hs) _ _ hl
    rw [hT'] at h1; cases h1
    obtain ⟨la', hc⟩ := h2 it la hh
    refine clo_viable ?_ hc
    rintro ⟨q, e⟩ la ⟨d, p, h3, h4, h5, h6⟩
    simp only at h3 h4 h5
    obtain ⟨p', β, δ, k1, k2, k3⟩ := ih rfl hs _ _ h4
    simp only at k1 k2
    rw [h5] at k1; cases k1
    refine ⟨p, β, δ, h5, ?_, k3⟩
    subst h3
    simp only [List.reverse_cons, k2, List.take_add_one, h6, Option.toList_some, List.append_assoc]

/-- States are not empty. -/
theorem TabSound.item (hT : TabSound g lalr action got look) {st : List Nat} {α : List Sym} (hp : Path lalr look st α) :
    ∃ s tl S it la, st = s :: tl ∧ lalr[s]? = some S ∧ Has S it la := by
  cases hp with
  | start =>
    obtain ⟨s0, h0, _, h1⟩ := hT.init
    exact ⟨0, [], s0, _, _, rfl, h0, h1⟩
  | push _ hs hl =>
    obtain ⟨S', h1, _, it, la, h3⟩ := hT.lookS _ (List.mem_of_getElem? hs) _ _ hl
    exact ⟨_, _, S', it, la, rfl, h1, h3⟩

theorem productive {w : List Sym} (hpr : ∀ A, (∃ p ∈ g.prods, Sym.nonTerm A ∈ p.inputs) →
      ∃ v, (∀ t ∈ v, IsTerm t) ∧ Steps (Rule g.prods) [.nonTerm A] v)
    (hw : ∀ x ∈ w, IsTerm x ∨ ∃ A, x = .nonTerm A ∧ ∃ p ∈ g.prods, Sym.nonTerm A ∈ p.inputs) :
    ∃ v, (∀ t ∈ v, IsTerm t) ∧ Steps (Rule g.prods) w v := by
  induction w with
  | nil => exact ⟨[], by simp, .refl⟩
  | cons x w ih =>
    obtain ⟨v, hv1, hv2⟩ := ih fun y hy => hw y (by simp [hy])
    obtain ⟨u, hu1, hu2⟩ : ∃ u, (∀ t ∈ u, IsTerm t) ∧ Steps (Rule g.prods) [x] u := by
      rcases hw x (by simp) with hx | ⟨A, rfl, hA⟩
      · exact ⟨[x], by simpa using hx, .refl⟩
      · exact hpr A hA
    refine ⟨u ++ v, ?_, hu2.append hv2⟩
    intro t ht
    rcases List.mem_append.mp ht with ht | ht
    · exact hu1 t ht
    · exact hv1 t ht

/-- Sentential forms contain only symbols of bodies. -/
theorem steps_syms (h : GOk g) {α β : List Sym}
    (hα : ∀ x ∈ α, IsTerm x ∨ ∃ A, x = .nonTerm A ∧ ∃ p ∈ g.prods, Sym.nonTerm A ∈ p.inputs)
    (hs : Steps (Rule g.prods) α β) :
    ∀ x ∈ β, IsTerm x ∨ ∃ A, x = .nonTerm A ∧ ∃ p ∈ g.prods, Sym.nonTerm A ∈ p.inputs := by
  induction hs with
  | refl => exact hα
  | tail _ hst ih =>
    cases hst with
    | @mk l r A rhs hR =>
      obtain ⟨p, hp, _, rfl⟩ := hR
      intro x hx
      simp only [List.mem_append] at hx
      rcases hx with (hx | hx) | hx
      · exact ih x (by simp [hx])
      · by_cases hn : ∃ B, x = .nonTerm B
        · obtain ⟨B, rfl⟩ := hn
          exact .inr ⟨B, rfl, p, hp, hx⟩
        · rw [not_exists] at hn
          exact .inl (h.isTerm hp hx hn)
      · exact ih x (by simp [hx])

theorem steps_tokens (h : GOk g) {α β : List Sym} (hα : ∀ x ∈ α, x ∈ g.tokens)
    (hs : Steps (Rule g.prods) α β) : ∀ x ∈ β, x ∈ g.tokens := by
  induction hs with
  | refl => exact hα
  | tail _ hst ih =>
    cases hst with
    | @mk l r A rhs hR =>
      obtain ⟨p, hp, _, rfl⟩ := hR
      intro x hx
      simp only [List.mem_append] at hx
      rcases hx with (hx | hx) | hx
      · exact ih x (by simp [hx])
      · exact (h.tokMem x).mpr (.inr ⟨p, hp, hx⟩)
      · exact ih x (by simp [hx])

/-- The tokens shifted so far begin a sentence. -/
theorem Inv.viable (h : GOk g) (hT : TabSound g lalr action got look) {S : Str}
    (hS : g.prods[0]? = some ⟨g.augName, [.nonTerm S], none, none⟩)
    (hpr : ∀ A, (∃ p ∈ g.prods, Sym.nonTerm A ∈ p.inputs) →
      ∃ v, (∀ t ∈ v, IsTerm t) ∧ Steps (Rule g.prods) [.nonTerm A] v)
    {toks : List Nat} {st : PState} {f : Forest} {w : List Nat} (hI : Inv g lalr look toks st f w) :
    ∃ v, Sentence (Rule g.prods) S (f.yield ++ v) := by
  obtain ⟨s, tl, T, it, la, h1, h2, h3⟩ := hT.item hI.path
  obtain ⟨p, β, δ, k1, k2, k3⟩ := hI.path.viable hT hS h1 h2 it la h3
  rw [List.reverse_reverse] at k2
  have h0 : ∀ x ∈ [Sym.nonTerm S], IsTerm x ∨ ∃ A, x = .nonTerm A ∧ ∃ p ∈ g.prods, Sym.nonTerm A ∈ p.inputs := by
    intro x hx
    simp only [List.mem_singleton] at hx
    subst hx
    exact .inr ⟨S, rfl, _, List.mem_of_getElem? hS, by simp⟩
  have hsplit : β ++ p.inputs ++ δ = f.roots g.prods ++ (p.inputs.drop it.2 ++ δ) := by
    rw [k2]
    conv => lhs; rw [← List.take_append_drop it.2 p.inputs]
    simp only [List.append_assoc]
  rw [hsplit] at k3
  have hsym := steps_syms h h0 k3
  obtain ⟨v, hv1, hv2⟩ := productive hpr (w := p.inputs.drop it.2 ++ δ) fun x hx =>
    hsym x (List.mem_append_right _ hx)
  refine ⟨v, ?_, k3.trans ((Forest.steps f hI.valid).append hv2)⟩
  intro t ht
  rcases List.mem_append.mp ht with ht | ht
  · exact Forest.yield_term f hI.valid t ht
  · exact hv1 t ht

/-- The invariant holds along a run. -/
theorem _root_.Verif.Spec.Runs.inv (h : GOk g) (hT : TabSound g lalr action got look) {toks : List Nat} {n : Nat} {st st' : PState}
    (hr : Runs g action got toks n st st') : ∀ {f : Forest} {w : List Nat}, Inv g lalr look toks st f w →
    ∃ f' w', Inv g lalr look toks st' f' w' := by
  induction hr with
  | refl => intro f w hI; exact ⟨f, w, hI⟩
  | head hs _ ih =>
    intro f w hI
    rcases step_spec h hT hI with ⟨st1, f1, w1, h1, h2, _⟩ | ⟨h1, _⟩ | h1 | ⟨h1, _⟩
    · rw [hs] at h1; cases h1
      exact ih h2
    all_goals rw [hs] at h1; cases h1

theorem Inv.le (h : GOk g) {toks : List Nat} {st : PState} {f : Forest} {w : List Nat}
    (hI : Inv g lalr look toks st f w) {n : Nat} (hn : toks[n]? = some 0) : st.i ≤ n ∧ w = toks.take st.i := by
  have hlt := (List.getElem?_eq_some_iff.mp hn).1
  have hle : st.i ≤ n := by
    by_contra hgt
    have h1 := hI.get n (by omega)
    rw [Nat.min_eq_left (by omega), hn] at h1
    exact hI.ne_zero h 0 (List.mem_of_getElem? h1) rfl
  refine ⟨hle, ?_⟩
  apply List.ext_getElem?
  intro k
  by_cases hk : k < st.i
  · rw [hI.get k hk, Nat.min_eq_left (by omega), List.getElem?_take_of_lt hk]
  · rw [List.getElem?_eq_none (by rw [hI.len]; omega), List.getElem?_eq_none (by simp; omega)]

theorem run_mono {toks : List Nat} : ∀ {fuel : Nat} {st : PState} {r : Res PState} (k : Nat),
    run g action got toks fuel st = r → r ≠ .error .outOfFuel → run g action got toks (fuel + k) st = r
  | 0, st, r, k, h, hne => absurd h.symm hne
  | fuel + 1, st, r, k, h, hne => by
    rw [show fuel + 1 + k = (fuel + k) + 1 by omega]
    simp only [run] at h ⊢
    cases hs : step g action got toks st with
    | error e => simpa [hs] using h
    | ok o =>
      cases o with
      | none => simpa [hs] using h
      | some st' =>
        simp only [hs] at h ⊢
        exact run_mono k h hne

theorem parseIdx_mono {toks : List Nat} {fuel : Nat} {r : Res (List Nat)} (k : Nat)
    (h : parseIdx g action got fuel toks = r) (hne : r ≠ .error .outOfFuel) :
    parseIdx g action got (fuel + k) toks = r := by
  unfold parseIdx at h ⊢
  cases hs : startState toks with
  | error e => simpa [hs, bind, Except.bind] using h
  | ok st =>
    simp only [hs, bind, Except.bind] at h ⊢
    have : run g action got toks fuel st ≠ .error .outOfFuel := by
      intro hr
      rw [hr] at h
      exact hne h.symm
    rw [run_mono k rfl this]
    exact h

end Lalr

namespace Grammar

/-- The rules of the numbered productions. -/
theorem rule_iff {ps : List Ast.Prod} {g : Grammar} (hg : fromAst ps = .ok g) {start : Ast.Prod}
    (hs : ps.find? (fun p => p.isStart) = some start) {A : Str} {rhs : List Sym} :
    Rule g.prods A rhs ↔ (A = g.augName ∧ rhs = [.nonTerm start.name]) ∨ AstRule ps A rhs := by
  obtain ⟨g', h1, h2, _, h4, _⟩ := fromAst_spec hs
  rw [hg] at h1; cases h1
  constructor
  · rintro ⟨p, hp, rfl, rfl⟩
    rw [h4] at hp
    rcases List.mem_cons.mp hp with rfl | hp
    · exact .inl ⟨h2.symm, rfl⟩
    · obtain ⟨q, hq, hp⟩ := List.mem_flatMap.mp hp
      obtain ⟨b, hb, rfl⟩ := List.mem_map.mp hp
      exact .inr ⟨q, hq, b, hb, rfl, rfl⟩
  · rintro (⟨rfl, rfl⟩ | ⟨q, hq, b, hb, rfl, rfl⟩)
    · exact ⟨_, by rw [h4]; exact List.mem_cons_self, h2.symm, rfl⟩
    · exact ⟨fromAstBody q b, by
        rw [h4]; exact List.mem_cons_of_mem _ (List.mem_flatMap.mpr ⟨q, hq, List.mem_map_of_mem hb⟩), rfl, rfl⟩

theorem start_prod {ps : List Ast.Prod} {g : Grammar} (hg : fromAst ps = .ok g) {start : Ast.Prod}
    (hs : ps.find? (fun p => p.isStart) = some start) :
    g.prods[0]? = some ⟨g.augName, [.nonTerm start.name], none, none⟩ := by
  obtain ⟨g', h1, h2, _, h4, _⟩ := fromAst_spec hs
  rw [hg] at h1; cases h1
  rw [h4, h2]; rfl

theorem steps_ast {ps : List Ast.Prod} {g : Grammar} (h : GOk g) (hg : fromAst ps = .ok g) {start : Ast.Prod}
    (hs : ps.find? (fun p => p.isStart) = some start) {α β : List Sym} (hα : Sym.nonTerm g.augName ∉ α)
    (hst : Steps (Rule g.prods) α β) : Steps (AstRule ps) α β ∧ Sym.nonTerm g.augName ∉ β := by
  induction hst with
  | refl => exact ⟨.refl, hα⟩
  | tail _ hst ih =>
    obtain ⟨ih1, ih2⟩ := ih
    cases hst with
    | @mk l r A rhs hR =>
      have hA : A ≠ g.augName := by rintro rfl; simp at ih2
      have hR' : AstRule ps A rhs := by
        rcases (rule_iff hg hs).mp hR with ⟨h1, _⟩ | h1
        · exact absurd h1 hA
        · exact h1
      refine ⟨.tail ih1 (.mk hR'), ?_⟩
      obtain ⟨p, hp, _, rfl⟩ := hR
      have := h.fresh p hp
      simp only [List.mem_append, List.mem_cons, not_or] at ih2 ⊢
      exact ⟨⟨ih2.1, this⟩, ih2.2.2⟩

theorem sentence_iff {ps : List Ast.Prod} {g : Grammar} (h : GOk g) (hg : fromAst ps = .ok g) {start : Ast.Prod}
    (hs : ps.find? (fun p => p.isStart) = some start) {A : Str} (hA : A ≠ g.augName) {w : List Sym} :
    Sentence (Rule g.prods) A w ↔ Sentence (AstRule ps) A w := by
  constructor
  · rintro ⟨h1, h2⟩
    exact ⟨h1, (steps_ast h hg hs (by simpa using fun h => hA h.symm) h2).1⟩
  · rintro ⟨h1, h2⟩
    exact ⟨h1, h2.mono fun A r hR => (rule_iff hg hs).mpr (.inr hR)⟩

theorem start_ne {ps : List Ast.Prod} {g : Grammar} (h : GOk g) (hg : fromAst ps = .ok g) {start : Ast.Prod}
    (hs : ps.find? (fun p => p.isStart) = some start) : start.name ≠ g.augName := by
  intro he
  refine h.fresh _ (List.mem_of_getElem? (start_prod hg hs)) ?_
  simp [he]

/-- Unit cycles are cycles of the source grammar. -/
theorem unit_ast {ps : List Ast.Prod} {g : Grammar} (h : GOk g) (hg : fromAst ps = .ok g) {start : Ast.Prod}
    (hs : ps.find? (fun p => p.isStart) = some start) (hu : ∀ A, ¬ UnitPlus (AstRule ps) A (.nonTerm A)) :
    ∀ A, ¬ UnitPlus (Rule g.prods) A (.nonTerm A) := by
  have h1 : ∀ {A X}, UnitPlus (Rule g.prods) A X → A ≠ g.augName → UnitPlus (AstRule ps) A X := by
    intro A X hx
    induction hx with
    | one hR =>
      intro hA
      rcases (rule_iff hg hs).mp hR with ⟨k, _⟩ | k
      · exact absurd k hA
      · exact .one k
    | @cons A B X hR _ ih =>
      intro hA
      rcases (rule_iff hg hs).mp hR with ⟨k, _⟩ | k
      · exact absurd k hA
      · refine .cons k (ih ?_)
        rintro rfl
        obtain ⟨p, hp, _, hi⟩ := hR
        exact h.fresh p hp (by simp [hi])
  have h2 : ∀ {A X}, UnitPlus (Rule g.prods) A X → X ≠ .nonTerm g.augName := by
    intro A X hx
    induction hx with
    | one hR =>
      obtain ⟨p, hp, _, hi⟩ := hR
      rintro rfl
      exact h.fresh p hp (by simp [hi])
    | cons _ _ ih => exact ih
  intro A hA
  by_cases he : A = g.augName
  · exact h2 hA (by rw [he])
  · exact hu A (h1 hA he)

end Grammar
end Verif
