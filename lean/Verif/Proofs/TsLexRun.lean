import Verif.Proofs.TsLexOk
import Verif.Spec.Scan
import Verif.Proofs.LexUnique

/-! The loop of ts/lex.ts as a relation, then as maximal munch. -/

namespace Verif
open Spec

namespace Lex

/-- `Run` with the error report; pieces carry the DFA state reached. -/
inductive RunE (lx : Lex) : Nat → List Char → List (Nat × List Char × Nat) → Option (Nat × Char) → Prop
  | done {k} : RunE lx k [] [] none
  | ws {k c rest out er} : isWhitespace c = true → lx.dfa.findEdge 0 c = none →
      RunE lx (k + 1) rest out er → RunE lx k (c :: rest) out er
  | tok {k input w s a rest out er} : LongestAcc lx input w a → lx.dfa.walk 0 w = some s →
      lx.acceptOf s = some a → input = w ++ rest →
      lx.dfa.walk 0 input = none → RunE lx (k + w.length) rest out er →
      RunE lx k input ((k, w, s) :: out) er
  | tokEnd {k input w s a rest} : LongestAcc lx input w a → lx.dfa.walk 0 w = some s →
      lx.acceptOf s = some a → input = w ++ rest →
      (lx.dfa.walk 0 input).isSome = true → RunE lx k input [(k, w, s)] none
  | cut {k input} : input ≠ [] → (∀ p a, (∃ r, input = p ++ r) → ¬ lx.Acc p a) →
      (lx.dfa.walk 0 input).isSome = true → RunE lx k input [] none
  | bad {k input j c} : (∀ p a, (∃ r, input = p ++ r) → ¬ lx.Acc p a) → input[j]? = some c →
      (lx.dfa.walk 0 (input.take j)).isSome = true → lx.dfa.walk 0 (input.take (j + 1)) = none →
      ¬ (j = 0 ∧ isWhitespace c = true) → RunE lx k input [] (some (k + j, c))

/-- Loop invariant. -/
structure CRun (lx : Lex) (input : Str) (st : CState) : Prop where
  le : st.start ≤ st.forward
  len : st.forward ≤ input.length
  walk : lx.dfa.walk 0 ((input.drop st.start).take (st.forward - st.start)) = some st.state
  lastNone : st.last = none → ∀ k' a, k' ≤ st.forward - st.start →
    ¬ lx.Acc ((input.drop st.start).take k') a
  lastSome : ∀ li ls, st.last = some (li, ls) → st.start ≤ li ∧ li < st.forward ∧
    (∃ a, lx.dfa.walk 0 ((input.drop st.start).take (li + 1 - st.start)) = some ls ∧
      lx.acceptOf ls = some a) ∧
    ∀ k' a, li + 1 - st.start < k' → k' ≤ st.forward - st.start →
      ¬ lx.Acc ((input.drop st.start).take k') a

/-- The position of a piece. -/
def raw (p : Nat × List Char × Nat) : Nat × Nat × Nat := (p.1, p.1 + p.2.1.length - 1, p.2.2)

/-- The pieces once the loop is over. -/
def cpieces (st : CState) : List (Nat × Nat × Nat) :=
  st.out ++ st.last.toList.map fun p => (st.start, p.1, p.2)

/-- Iterations still needed. -/
def cmeasure (input : Str) (st : CState) : Nat :=
  (input.length - st.start) * (input.length + 1) + (input.length - st.forward)

theorem crun_end {lx : Lex} {input : Str} {st : CState} (h : CRun lx input st)
    (hend : st.forward = input.length) : ∃ out, RunE lx st.start (input.drop st.start) out none ∧
    cpieces st = st.out ++ out.map raw := by
  have hle := h.le
  have htake : (input.drop st.start).take (st.forward - st.start) = input.drop st.start := by
    apply List.take_of_length_le; simp [hend]
  have hw := h.walk
  rw [htake] at hw
  have hlen : (input.drop st.start).length = st.forward - st.start := by simp [hend]
  cases hl : st.last with
  | none =>
    have hn := h.lastNone hl
    refine ⟨[], ?_, by simp [cpieces, hl]⟩
    by_cases hr : input.drop st.start = []
    · rw [hr]; exact .done
    · refine .cut hr ?_ (by rw [hw]; rfl)
      rintro p a ⟨r, hp⟩ hacc
      have := prefix_eq_take hp
      rw [this] at hacc
      refine hn p.length a ?_ hacc
      have := congrArg List.length hp
      simp only [List.length_append] at this; omega
  | some q =>
    obtain ⟨li, ls⟩ := q
    obtain ⟨h1, h2, ⟨a, h3, h3'⟩, h4⟩ := h.lastSome li ls hl
    have hne : (input.drop st.start).take (li + 1 - st.start) ≠ [] := by
      intro h0; have := congrArg List.length h0; simp at this; omega
    refine ⟨[(st.start, (input.drop st.start).take (li + 1 - st.start), ls)], ?_, ?_⟩
    · refine .tokEnd (longest_of (by omega) ⟨hne, _, h3, h3'⟩ ?_) h3 h3' (List.take_append_drop _ _).symm (by rw [hw]; rfl)
      intro k' b hk' hkl hacc
      exact h4 k' b hk' (by omega) hacc
    · have : st.start + (List.take (li + 1 - st.start) (List.drop st.start input)).length - 1 = li := by
        simp only [List.length_take, hlen]; omega
      simp only [cpieces, hl, raw, List.map_cons, List.map_nil, Option.toList_some, this]

theorem cutLoop_run (lx : Lex) (input : Str) : ∀ (fuel : Nat) (st : CState), CRun lx input st →
    cmeasure input st ≤ fuel → ∃ st' e out, cutLoop lx input fuel st = some (st', e) ∧
      RunE lx st.start (input.drop st.start) out (e.map fun c => (st'.forward, c)) ∧
      cpieces st' = st.out ++ out.map raw ∧ (e.isSome = true → st'.last = none) := by
  intro fuel
  induction fuel with
  | zero =>
    intro st h hm
    have hend : st.forward = input.length := by
      have := h.len
      unfold cmeasure at hm
      omega
    obtain ⟨out, h1, h2⟩ := crun_end h hend
    exact ⟨st, none, out, cutLoop_end lx input 0 st (by rw [List.getElem?_eq_none]; omega), h1, h2, by simp⟩
  | succ fuel ih =>
    intro st h hm
    by_cases hend : st.forward = input.length
    · obtain ⟨out, h1, h2⟩ := crun_end h hend
      exact ⟨st, none, out, cutLoop_end lx input _ st (by rw [List.getElem?_eq_none]; omega), h1, h2, by simp⟩
    have hlt : st.forward < input.length := by have := h.len; omega
    have hle := h.le
    have hlen : (input.drop st.start).length = input.length - st.start := by simp
    obtain ⟨c, hc⟩ : ∃ c, input[st.forward]? = some c := ⟨_, List.getElem?_eq_getElem hlt⟩
    have htk := take_succ_drop hle hc
    rw [cutLoop_step, hc]
    simp only
    cases he : lx.dfa.findEdge st.state c with
    | some e =>
      simp only
      have hwalk : lx.dfa.walk 0 ((input.drop st.start).take (st.forward + 1 - st.start)) = some e.dst := by
        rw [htk, Dfa.walk_snoc, h.walk]; simp [he]
      refine ih { st with
          last := if (lx.acceptOf e.dst).isSome then some (st.forward, e.dst) else st.last
          state := e.dst
          forward := st.forward + 1 } ?_ ?_
      refine ⟨by simp only; omega, by simp only; omega, hwalk, ?_, ?_⟩
      · intro hl k' a hk' hacc
        simp only at hl hk' hacc
        cases ha : lx.acceptOf e.dst with
        | some b => simp [ha] at hl
        | none =>
          simp only [ha, Option.isSome_none, Bool.false_eq_true, if_false] at hl
          by_cases hk2 : k' ≤ st.forward - st.start
          · exact h.lastNone hl k' a hk2 hacc
          · have : k' = st.forward + 1 - st.start := by omega
            subst this
            obtain ⟨_, t, ht, hta⟩ := hacc
            rw [hwalk] at ht; cases ht
            rw [ha] at hta; cases hta
      · intro li ls hl
        simp only at hl ⊢
        cases ha : lx.acceptOf e.dst with
        | some b =>
          simp only [ha, Option.isSome_some, if_true, Option.some.injEq, Prod.mk.injEq] at hl
          obtain ⟨rfl, rfl⟩ := hl
          refine ⟨hle, by omega, ⟨b, hwalk, ha⟩, ?_⟩
          intro k' a h1 h2; omega
        | none =>
          simp only [ha, Option.isSome_none, Bool.false_eq_true, if_false] at hl
          obtain ⟨h1, h2, h3, h4⟩ := h.lastSome li ls hl
          refine ⟨h1, by omega, h3, ?_⟩
          intro k' a h5 h6 hacc
          by_cases hk2 : k' ≤ st.forward - st.start
          · exact h4 k' a h5 hk2 hacc
          · have : k' = st.forward + 1 - st.start := by omega
            subst this
            obtain ⟨_, t, ht, hta⟩ := hacc
            rw [hwalk] at ht; cases ht
            rw [ha] at hta; cases hta
      · unfold cmeasure at hm ⊢
        simp only
        omega
    | none =>
      simp only
      have hstuck : lx.dfa.walk 0 ((input.drop st.start).take (st.forward - st.start + 1)) = none := by
        rw [show st.forward - st.start + 1 = st.forward + 1 - st.start from by omega, htk, Dfa.walk_snoc, h.walk]
        simp [he]
      cases hl : st.last with
      | some q =>
        obtain ⟨li, ls⟩ := q
        obtain ⟨h1, h2, ⟨a, h3, h3'⟩, h4⟩ := h.lastSome li ls hl
        simp only
        have hpl : st.start + (List.take (li + 1 - st.start) (List.drop st.start input)).length = li + 1 := by
          simp only [List.length_take, hlen]; omega
        have hne : (input.drop st.start).take (li + 1 - st.start) ≠ [] := by
          intro h0; have := congrArg List.length h0; simp at this; omega
        have hlong : LongestAcc lx (input.drop st.start) ((input.drop st.start).take (li + 1 - st.start)) a := by
          refine longest_of (by omega) ⟨hne, _, h3, h3'⟩ ?_
          intro k' b hk' _ hacc
          by_cases hk2 : k' ≤ st.forward - st.start
          · exact h4 k' b hk' hk2 hacc
          · exact stuck_acc hstuck (by omega) hacc
        obtain ⟨st', e, out, g1, g2, g3, g4⟩ := ih ⟨st.out ++ [(st.start, li, ls)], 0, li + 1, li + 1, none⟩ (by
            refine ⟨Nat.le_refl _, by simp only; omega, by simp [Dfa.walk], ?_, by simp⟩
            intro _ k' a hk' hacc
            simp only [Nat.sub_self, Nat.le_zero] at hk'
            subst hk'
            exact hacc.1 (by simp)) (by
            unfold cmeasure at hm ⊢
            simp only
            have hms : (input.length - (li + 1)) * (input.length + 1) + (input.length - (li + 1)) <
                (input.length - st.start) * (input.length + 1) + (input.length - st.forward) :=
              mul_step (by omega) (by omega)
            omega)
        have hdrop : (input.drop st.start).drop (li + 1 - st.start) = input.drop (li + 1) := by
          rw [List.drop_drop]; congr 1; omega
        refine ⟨st', e, (st.start, (input.drop st.start).take (li + 1 - st.start), ls) :: out, g1, ?_, ?_, g4⟩
        · refine .tok hlong h3 h3' (List.take_append_drop _ _).symm (stuck_all hstuck) ?_
          rw [hpl, hdrop]; exact g2
        · rw [g3]; simp only [raw, hpl, List.map_cons, List.append_assoc, List.singleton_append, Nat.add_sub_cancel]
      | none =>
        simp only
        have hcons : input.drop st.forward = c :: input.drop (st.forward + 1) := by
          rw [List.drop_eq_getElem_cons hlt]
          congr 1
          rw [List.getElem?_eq_getElem hlt] at hc
          exact Option.some.inj hc
        have hnone : ∀ p a, (∃ r, input.drop st.start = p ++ r) → ¬ lx.Acc p a := by
          rintro p a ⟨r, hp⟩ hacc
          rw [prefix_eq_take hp] at hacc
          by_cases hk2 : p.length ≤ st.forward - st.start
          · exact h.lastNone hl _ a hk2 hacc
          · exact stuck_acc hstuck (by omega) hacc
        by_cases hcond : (isWhitespace c && st.forward == st.start) = true
        · rw [if_pos hcond]
          simp only [Bool.and_eq_true, beq_iff_eq] at hcond
          obtain ⟨hws, hfs⟩ := hcond
          have hst : st.state = 0 := by
            have := h.walk
            rw [hfs] at this
            simpa [Dfa.walk] using this.symm
          obtain ⟨st', e, out, g1, g2, g3, g4⟩ :=
            ih ⟨st.out, st.state, st.start + 1, st.forward + 1, none⟩
            (by
              refine ⟨by simp only; omega, by simp only; omega, ?_, ?_, by simp⟩
              · simp [hfs, hst, Dfa.walk]
              · intro _ k' a hk' hacc
                simp only [hfs, Nat.sub_self, Nat.le_zero] at hk'
                subst hk'
                exact hacc.1 (by simp))
            (by
              unfold cmeasure at hm ⊢
              simp only
              have hms : (input.length - (st.start + 1)) * (input.length + 1) + (input.length - (st.forward + 1)) <
                  (input.length - st.start) * (input.length + 1) + (input.length - st.forward) :=
                mul_step (by omega) (by omega)
              omega)
          refine ⟨st', e, out, g1, ?_, g3, g4⟩
          rw [← hfs, hcons]
          refine .ws hws (by rw [← hst]; exact he) ?_
          simpa [hfs] using g2
        · rw [if_neg hcond]
          refine ⟨st, some c, [], rfl, ?_, by simp [cpieces, hl], fun _ => hl⟩
          have hj : st.start + (st.forward - st.start) = st.forward := by omega
          have := RunE.bad (lx := lx) (k := st.start) (input := input.drop st.start)
            (j := st.forward - st.start) (c := c) hnone
            (by rw [List.getElem?_drop, hj]; exact hc) (by rw [h.walk]; rfl) hstuck (by
              rintro ⟨h0, hw⟩
              have : st.forward = st.start := by omega
              simp [hw, this] at hcond)
          rw [hj] at this
          exact this

theorem cut_run (lx : Lex) (input : Str) : ∃ st' e out,
    cutLoop lx input (lexFuel input) ⟨[], 0, 0, 0, none⟩ = some (st', e) ∧
      RunE lx 0 input out (e.map fun c => (st'.forward, c)) ∧
      cpieces st' = out.map raw ∧ (e.isSome = true → st'.last = none) := by
  obtain ⟨st', e, out, h1, h2, h3, h4⟩ := cutLoop_run lx input (lexFuel input) ⟨[], 0, 0, 0, none⟩
    ⟨Nat.le_refl _, by simp, by simp [Dfa.walk], by
      intro _ k' a hk' hacc
      simp only [Nat.sub_self, Nat.le_zero] at hk'
      subst hk'
      exact hacc.1 (by simp), by simp⟩
    (by
      unfold cmeasure lexFuel
      simp only [Nat.sub_zero]
      have : (input.length + 1) * (input.length + 2) =
        input.length * (input.length + 1) + input.length + (input.length + 2) := by
        rw [Nat.mul_comm, Nat.add_mul]; omega
      omega)
  exact ⟨st', e, out, h1, by simpa using h2, by simpa using h3, h4⟩

variable {toks : List (TokenDef × Hir)} {lx : Lex} {N : Nfa} {acc : Nat → Nat} {al : List Match}
  {D : List (List Nat)} {s0 : List Nat}

/-- Pieces of the run and of the specification. -/
def Same (lx : Lex) (acc : Nat → Nat) (p : Nat × List Char × Nat) (q : Nat × Nat × List Char) : Prop :=
  p.1 = q.1 ∧ p.2.1 = q.2.2 ∧ lx.acceptOf p.2.2 = some (acc q.2.1) ∧ p.2.2 < lx.dfa.states.length

theorem findEdge_sub {d : Dfa} {s : Nat} {c : Char} {e : DEdge} (h : d.findEdge s c = some e) : e ∈ d.edges :=
  edgeIter_sub (List.mem_of_find?_eq_some h)

theorem Made.walk_lt (M : Made toks lx N acc al D s0) {w : List Char} : ∀ {s t : Nat},
    s < lx.dfa.states.length → lx.dfa.walk s w = some t → t < lx.dfa.states.length := by
  induction w with
  | nil => intro s t hs h; simp only [Dfa.walk] at h; cases h; exact hs
  | cons c w ih =>
    intro s t hs h
    simp only [Dfa.walk] at h
    cases he : lx.dfa.findEdge s c with
    | none => simp [he] at h
    | some e => rw [he] at h; exact ih (M.bound.1 e (findEdge_sub he)) h

theorem Made.scan (M : Made toks lx N acc al D s0) (hd : Dfa.Uniform N al)
    (hv : ∀ p ∈ toks, NonVoid p.2) {k input out er}
    (h : RunE lx k input out er) : ∃ out', Scan toks k input out' er ∧ List.Forall₂ (Same lx acc) out out' := by
  have hno : ∀ {input : List Char}, (∀ p a, (∃ r, input = p ++ r) → ¬ lx.Acc p a) → NoMatch toks input := by
    intro input h1 v hne hvp p hp hm
    obtain ⟨a, ha⟩ := M.acc_complete hd hne hp hm
    exact h1 v a hvp ha
  induction h with
  | done => exact ⟨[], .done, .nil⟩
  | ws h1 hf _ ih =>
    obtain ⟨out', h3, h4⟩ := ih
    refine ⟨out', .blank (blank_iff.mp h1) ?_ h3, h4⟩
    rw [← M.viable hd hv (by simp), walk_single]
    simpa using hf
  | tok h1 hw ha h2 h5 _ ih =>
    obtain ⟨out', h3, h4⟩ := ih
    obtain ⟨i, rfl, hm⟩ := M.acc_exact hd h1.1
    refine ⟨(_, i, _) :: out', .tok (M.longest hd h1) hm h2 ?_ h3, .cons ⟨rfl, rfl, ha, M.walk_lt M.bound.2 hw⟩ h4⟩
    rw [← M.viable hd hv (by rw [h2]; simp [h1.1.1]), h5]; simp
  | tokEnd h1 hw ha h2 h5 =>
    obtain ⟨i, rfl, hm⟩ := M.acc_exact hd h1.1
    refine ⟨[(_, i, _)], .tokEnd (M.longest hd h1) hm h2 ?_, .cons ⟨rfl, rfl, ha, M.walk_lt M.bound.2 hw⟩ .nil⟩
    rw [← M.viable hd hv (by rw [h2]; simp [h1.1.1])]; exact h5
  | cut h0 h1 h2 =>
    exact ⟨[], .cut h0 (hno h1) ((M.viable hd hv h0).mp h2), .nil⟩
  | @bad k input j c h1 hc h2 h3 h4 =>
    have hlt := (List.getElem?_eq_some_iff.mp hc).1
    have hne : ∀ j', 0 < j' → input.take j' ≠ [] := by
      intro j' h0 h
      rcases List.take_eq_nil_iff.mp h with h | h
      · omega
      · subst h; simp at hlt
    refine ⟨[], .bad (hno h1) hc ?_ ?_ ?_, .nil⟩
    · intro j' h0 hj'
      rw [← M.viable hd hv (hne j' h0)]
      obtain ⟨t, ht⟩ := Option.isSome_iff_exists.mp h2
      have e : input.take j = input.take j' ++ (input.take j).drop j' := by
        have := (List.take_append_drop j' (input.take j)).symm
        rwa [List.take_take, Nat.min_eq_left hj'] at this
      rw [e] at ht
      obtain ⟨u, hu⟩ := walk_prefix ht
      rw [hu]; rfl
    · rw [← M.viable hd hv (hne _ (by omega)), h3]; simp
    · rw [← blank_iff]; exact h4

/-- Where the pieces of a scan lie. -/
theorem scan_where {k input out er} (h : Scan toks k input out er) :
    ∀ p ∈ out, ∃ pre post, input = pre ++ (p.2.2 ++ post) ∧ p.1 = k + pre.length ∧ p.2.2 ≠ [] ∧
      ∃ q, toks[p.2.1]? = some q := by
  induction h with
  | done => simp
  | @blank k c rest out err _ _ _ ih =>
    intro p hp
    obtain ⟨pre, post, h1, h2, h3⟩ := ih p hp
    exact ⟨c :: pre, post, by simp [h1], by simp [h2]; omega, h3⟩
  | @tok k input w i rest out err h1 h2 h3 _ _ ih =>
    intro p hp
    rcases List.mem_cons.mp hp with rfl | hp
    · obtain ⟨q, hq, _⟩ := h2.1
      exact ⟨[], rest, by simp [h3], by simp, h1.1, q, hq⟩
    · obtain ⟨pre, post, h4, h5, h6⟩ := ih p hp
      exact ⟨w ++ pre, post, by simp [h3, h4], by simp [h5]; omega, h6⟩
  | @tokEnd k input w i rest h1 h2 h3 =>
    intro p hp
    simp only [List.mem_cons, List.not_mem_nil, or_false] at hp
    subst hp
    obtain ⟨q, hq, _⟩ := h2.1
    exact ⟨[], rest, by simp [h3], by simp, h1.1, q, hq⟩
  | cut => simp
  | bad => simp

/-- A Rust token as a TypeScript one. -/
def tsToken (t : Token) : Option Ts.Tok := some ⟨t.name, t.val.map .val⟩

theorem Made.tokTs (M : Made toks lx N acc al D s0) {max : Nat} {input : Str} (hlen : input.length ≤ max)
    {p : Nat × List Char × Nat} {q : Nat × Nat × List Char} (h : Same lx acc p q)
    (hq : ∃ pre post, input = pre ++ (q.2.2 ++ post) ∧ q.1 = 0 + pre.length ∧ q.2.2 ≠ [] ∧
      ∃ d, toks[q.2.1]? = some d) :
    Lex.tokTs max lx input (raw p) = tsToken (tokenOf toks q) := by
  obtain ⟨k, w, s⟩ := p
  obtain ⟨k', i, w'⟩ := q
  obtain ⟨rfl, rfl, ha, hs⟩ := h
  obtain ⟨pre, post, h1, h2, h3, d, hd⟩ := hq
  simp only at h1 h2 h3 hd ha hs ⊢
  have hl := congrArg List.length h1
  simp only [List.length_append] at hl
  have hw : 0 < w.length := List.length_pos_iff.mpr h3
  have e : k + w.length - 1 + 1 = k + w.length := by omega
  simp only [Lex.tokTs, raw, Ts.tokenDefToToken, M.getTokenDef hs, ha, Option.bind_some, M.comb.mget hd,
    Option.map_some, tokenOf, hd, tsToken]
  cases hv : d.1.withVal with
  | false => simp
  | true =>
    simp only [if_true]
    rw [Ts.succ_ok (by omega), e, Ts.substring_ok input (by omega) (by omega), if_pos (by omega)]
    simp only [Option.map_some, Option.some.injEq, Ts.Tok.mk.injEq, true_and, Ts.Text.val.injEq]
    rw [h1, List.drop_left' (by omega), Nat.add_sub_cancel_left]; simp

/-- The result of `Lex` for a scan. -/
def tsLexOut (toks : List (TokenDef × Hir)) (out : List (Nat × Nat × List Char)) :
    Option (Nat × Char) → Ts.LexOut
  | none => .tokens ((out.map fun p => tsToken (tokenOf toks p)) ++ [some ⟨"EOF".toList, none⟩])
  | some (i, c) => .invalidSymbol c (some i)

theorem charList_ok {code : Char → Option Nat} {input : Str} (h : ∀ c ∈ input, (code c).isSome = true) :
    ∀ l, Ts.charList code input l = some (l.reverse ++ input) := by
  induction input with
  | nil => intro l; simp [Ts.charList, Ts.reverse_eq]
  | cons c cs ih =>
    intro l
    have hc := h c List.mem_cons_self
    rw [Ts.charList]
    cases h1 : code c with
    | none => simp [h1] at hc
    | some x => simp only; rw [ih fun d hd => h d (List.mem_cons_of_mem _ hd)]; simp

theorem Made.lex_eq (M : Made toks lx N acc al D s0) {max : Nat} (hf : Fits max lx)
    {code : Char → Option Nat} {input : Str} (hlen : input.length ≤ max)
    (hcode : ∀ c ∈ input, code c = some c.toNat ∧ c.toNat ≤ 255) {st : CState} {e : Option Char}
    (h : cutLoop lx input (lexFuel input) ⟨[], 0, 0, 0, none⟩ = some (st, e)) :
    Ts.lex max code (LexGen.Tables.new lx) (lexFuel input) input = match e with
      | some c => .invalidSymbol c (some st.forward)
      | none => .tokens ((cpieces st).map (Lex.tokTs max lx input) ++ [some ⟨"EOF".toList, none⟩]) := by
  have h1 := M.lexImpl hf hlen hcode (lexFuel input) ⟨[], 0, 0, 0, none⟩
    ⟨by simp, by simp, M.bound.2, by simp, by simp⟩
  rw [h] at h1
  rw [Ts.lex, charList_ok (by intro c hc; rw [(hcode c hc).1]; rfl)]
  simp only [List.reverse_nil, List.nil_append]
  have h2 : tsOf max lx input ⟨[], 0, 0, 0, none⟩ = ⟨0, [], some 0, some 0, none⟩ := rfl
  rw [h2] at h1
  rw [h1]
  cases e with
  | some c => rfl
  | none =>
    simp only [tsRes, tsOf]
    cases hl : st.last with
    | none => simp [cpieces, hl, Ts.reverse_eq]
    | some q => simp [cpieces, hl, Ts.reverse_eq, Lex.tokTs]

/-- The type-level lexer computes the scan. -/
theorem Made.tsLex (M : Made toks lx N acc al D s0) (hd : Dfa.Uniform N al)
    (hv : ∀ p ∈ toks, NonVoid p.2) {max : Nat} (hf : Fits max lx)
    {code : Char → Option Nat} {input : Str} (hlen : input.length ≤ max)
    (hcode : ∀ c ∈ input, code c = some c.toNat ∧ c.toNat ≤ 255) :
    ∃ out er, Scan toks 0 input out er ∧
      Ts.lex max code (LexGen.Tables.new lx) (lexFuel input) input = tsLexOut toks out er := by
  obtain ⟨st, e, out, h1, h2, h3, _⟩ := cut_run lx input
  obtain ⟨out', h5, h6⟩ := M.scan hd hv h2
  refine ⟨out', _, h5, ?_⟩
  rw [M.lex_eq hf hlen hcode h1]
  cases e with
  | some c => rfl
  | none =>
    simp only [Option.map_none, tsLexOut, h3]
    congr 2
    have hw := scan_where h5
    clear h1 h2 h3 h5
    induction h6 with
    | nil => rfl
    | cons hs _ ih =>
      simp only [List.map_cons, List.cons.injEq]
      exact ⟨M.tokTs hlen hs (hw _ List.mem_cons_self), ih fun p hp => hw p (List.mem_cons_of_mem _ hp)⟩

/-! ## Agreement with the Rust loop -/

theorem Made.cutLoop_inv (M : Made toks lx N acc al D s0) {input : Str} : ∀ (fuel : Nat) (st : CState)
    {st' : CState} {e : Option Char}, CInv lx input st → cutLoop lx input fuel st = some (st', e) →
    CInv lx input st' ∧ match e with
      | none => st'.forward = input.length
      | some c => input[st'.forward]? = some c ∧ st'.last = none := by
  have hend : ∀ (st : CState), CInv lx input st → input[st.forward]? = none →
      CInv lx input st ∧ st.forward = input.length := by
    intro st h hc
    have := h.len
    have := List.getElem?_eq_none_iff.mp hc
    exact ⟨h, by omega⟩
  intro fuel
  induction fuel with
  | zero =>
    intro st st' e h hr
    unfold cutLoop at hr
    cases hc : input[st.forward]? with
    | none => simp only [hc] at hr; cases hr; exact hend st h hc
    | some c => simp [hc] at hr
  | succ fuel ih =>
    intro st st' e h hr
    rw [cutLoop_step] at hr
    cases hc : input[st.forward]? with
    | none => simp only [hc] at hr; cases hr; exact hend st h hc
    | some c =>
      simp only [hc] at hr
      cases he : lx.dfa.findEdge st.state c with
      | some d => simp only [he] at hr; exact ih _ (h.edge M.bound.1 hc he) hr
      | none =>
        simp only [he] at hr
        cases hl : st.last with
        | some q =>
          obtain ⟨li, ls⟩ := q
          simp only [hl] at hr
          exact ih _ (h.tok M.bound.2 hl) hr
        | none =>
          simp only [hl] at hr
          by_cases hw : (isWhitespace c && st.forward == st.start) = true
          · rw [if_pos hw] at hr
            have := h.ws hc hl
            rw [hl] at this
            exact ih _ this hr
          · rw [if_neg hw] at hr
            cases hr
            exact ⟨h, hc, hl⟩

theorem Made.tsTokR (M : Made toks lx N acc al D s0) {max : Nat} {input : Str} (hlen : input.length ≤ max)
    {p : Nat × Nat × Nat} (h1 : p.1 ≤ p.2.1) (h2 : p.2.1 < input.length)
    (h3 : p.2.2 < lx.dfa.states.length) (h4 : (lx.acceptOf p.2.2).isSome = true) :
    Lex.tokTs max lx input p = tsToken (tokR lx input p) := by
  obtain ⟨a, ha⟩ := Option.isSome_iff_exists.mp h4
  obtain ⟨i, q, _, _, hm⟩ := M.accept_token h3 ha
  simp only [Lex.tokTs, Ts.tokenDefToToken, M.getTokenDef h3, ha, Option.bind_some, hm,
    Option.map_some, tsToken, tokR]
  cases hv : q.1.withVal with
  | false => simp
  | true =>
    simp only [if_true]
    rw [Ts.succ_ok (by omega), Ts.substring_ok input (by omega) (by omega), if_pos (by omega)]
    rfl

/-- Both lexers run the same loop. -/
theorem Made.agree (M : Made toks lx N acc al D s0) {max : Nat} (hf : Fits max lx)
    {code : Char → Option Nat} {input : Str} (hlen : input.length ≤ max)
    (hcode : ∀ c ∈ input, code c = some c.toNat ∧ c.toNat < 128) :
    ∃ st ts, lx.lexLoop input (lexFuel input) ⟨[], 0, 0, 0, none⟩ = .ok st ∧ lx.lex input = .ok ts ∧
      ((st.forward = input.length ∧ Ts.lex max code (LexGen.Tables.new lx) (lexFuel input) input =
          .tokens (ts.map tsToken ++ [some ⟨"EOF".toList, none⟩])) ∨
       ∃ c, input[st.forward]? = some c ∧
        Ts.lex max code (LexGen.Tables.new lx) (lexFuel input) input = .invalidSymbol c (some st.forward)) := by
  obtain ⟨st, e, _, h1, _⟩ := cut_run lx input
  have h0 : CInv lx input ⟨[], 0, 0, 0, none⟩ := ⟨by simp, by simp, M.bound.2, by simp, by simp⟩
  have hasc : ∀ c ∈ input, c.toNat < 128 := fun c hc => (hcode c hc).2
  have hI := M.cutLoop_inv _ _ h0 h1
  have hr := M.lexLoop hasc (lexFuel input) ⟨[], 0, 0, 0, none⟩ h0
  rw [h1] at hr
  have hr' : lx.lexLoop input (lexFuel input) ⟨[], 0, 0, 0, none⟩ = .ok (rustOf lx input st) := hr
  have hts := M.lex_eq hf hlen (fun c hc => ⟨(hcode c hc).1, by have := (hcode c hc).2; omega⟩) h1
  have hlex : lx.lex input = .ok ((cpieces st).map (tokR lx input)) := by
    rw [Lex.lex, hr']
    simp only [bind, Except.bind]
    cases hl : st.last with
    | none => simp [rustOf, hl, cpieces, pure, Except.pure]
    | some q =>
      obtain ⟨li, ls⟩ := q
      obtain ⟨g1, g2, g3, g4⟩ := hI.1.last li ls hl
      obtain ⟨a, ha⟩ := Option.isSome_iff_exists.mp g4
      have := hI.1.len
      have hm := M.makeTok hasc (p := (st.start, li, ls)) g1 (by simp only; omega) g3 ha
      simp only at hm
      simp [rustOf, hl, ha, hm, cpieces, pure, Except.pure]
  refine ⟨rustOf lx input st, _, hr', hlex, ?_⟩
  cases e with
  | some c => exact .inr ⟨c, hI.2.1, hts⟩
  | none =>
    refine .inl ⟨hI.2, ?_⟩
    rw [hts]
    simp only [List.map_map]
    congr 2
    apply List.map_congr_left
    intro p hp
    have hb : p.1 ≤ p.2.1 ∧ p.2.1 < input.length ∧ p.2.2 < lx.dfa.states.length ∧
        (lx.acceptOf p.2.2).isSome = true := by
      simp only [cpieces, List.mem_append, List.mem_map, Option.mem_toList] at hp
      rcases hp with hp | ⟨q, hq, rfl⟩
      · exact hI.1.out p hp
      · obtain ⟨g1, g2, g3, g4⟩ := hI.1.last q.1 q.2 hq
        have := hI.1.len
        exact ⟨g1, by simp only; omega, g3, g4⟩
    exact M.tsTokR hlen hb.1 hb.2.1 hb.2.2.1 hb.2.2.2

/-! ## The specification has one result -/

theorem viable_prefix {v w : List Char} (h : Viable toks (v ++ w)) : Viable toks v := by
  obtain ⟨u, p, hp, hm⟩ := h
  exact ⟨w ++ u, p, hp, by simpa using hm⟩

theorem viable_take {w : List Char} (h : Viable toks w) (j : Nat) : Viable toks (w.take j) := by
  rw [← List.take_append_drop j w] at h
  exact viable_prefix h

theorem scan_unique {k input out er} (h : Scan toks k input out er) :
    ∀ {out' er'}, Scan toks k input out' er' → out = out' ∧ er = er' := by
  induction h with
  | done =>
    intro out' er' h'
    cases h' with
    | done => exact ⟨rfl, rfl⟩
    | tok h1 => exact (longest_ne_nil h1).elim
    | tokEnd h1 => exact (longest_ne_nil h1).elim
    | cut h1 => exact absurd rfl h1
    | bad _ h1 => simp at h1
  | @blank k c rest out err h1 h2 _ ih =>
    intro out' er' h'
    cases h' with
    | blank _ _ h => exact ih h
    | tok h1 => exact absurd (longest_viable h1) h2
    | tokEnd h1 => exact absurd (longest_viable h1) h2
    | cut _ _ h3 => exact absurd (viable_prefix (v := [c]) h3) h2
    | @bad _ _ j c' _ g1 g2 _ g4 =>
      cases j with
      | zero => simp at g1; subst g1; exact absurd ⟨rfl, h1⟩ g4
      | succ j => exact absurd (g2 1 (by omega) (by omega)) (by simpa using h2)
  | tok h1 h2 h3 h4 _ ih =>
    intro out' er' h'
    cases h' with
    | done => exact (longest_ne_nil h1).elim
    | blank _ h6 => exact absurd (longest_viable h1) h6
    | tok g1 g2 g3 _ g5 =>
      have := longest_unique h1 g1
      subst this
      have := firstMatch_unique h2 g2
      subst this
      have := List.append_cancel_left (h3.symm.trans g3)
      subst this
      obtain ⟨rfl, rfl⟩ := ih g5
      exact ⟨rfl, rfl⟩
    | tokEnd _ _ _ g4 => exact absurd g4 h4
    | cut _ g1 => exact (longest_not_stop h1 g1).elim
    | bad g1 => exact (longest_not_stop h1 g1).elim
  | tokEnd h1 h2 h3 h4 =>
    intro out' er' h'
    cases h' with
    | done => exact (longest_ne_nil h1).elim
    | blank _ h6 => exact absurd (longest_viable h1) h6
    | tok _ _ _ g4 => exact absurd h4 g4
    | tokEnd g1 g2 =>
      have := longest_unique h1 g1
      subst this
      have := firstMatch_unique h2 g2
      subst this
      exact ⟨rfl, rfl⟩
    | cut _ g1 => exact (longest_not_stop h1 g1).elim
    | bad g1 => exact (longest_not_stop h1 g1).elim
  | cut h0 h1 h2 =>
    intro out' er' h'
    cases h' with
    | done => exact absurd rfl h0
    | blank _ h6 => exact absurd (viable_prefix (v := [_]) h2) h6
    | tok g1 => exact (longest_not_stop g1 h1).elim
    | tokEnd g1 => exact (longest_not_stop g1 h1).elim
    | cut => exact ⟨rfl, rfl⟩
    | bad _ _ _ g3 => exact absurd (viable_take h2 _) g3
  | @bad k input j c h1 hc h2 h3 h4 =>
    intro out' er' h'
    cases h' with
    | done => simp at hc
    | @blank _ d rest _ _ g1 g2 _ =>
      cases j with
      | zero => simp at hc; subst hc; exact absurd ⟨rfl, g1⟩ h4
      | succ j => exact absurd (h2 1 (by omega) (by omega)) (by simpa using g2)
    | tok g1 => exact (longest_not_stop g1 h1).elim
    | tokEnd g1 => exact (longest_not_stop g1 h1).elim
    | cut _ _ g => exact absurd (viable_take g _) h3
    | @bad _ _ j' c' _ gc g2 g3 _ =>
      have h5 : ¬ j < j' := fun h => h3 (g2 (j + 1) (by omega) (by omega))
      have h6 : ¬ j' < j := fun h => g3 (h2 (j' + 1) (by omega) (by omega))
      have : j = j' := by omega
      subst this
      rw [hc] at gc; cases gc
      exact ⟨rfl, rfl⟩

end Lex
end Verif
