import Verif.Proofs.PieceWalk
import Verif.Proofs.LexBytes
import Verif.Model.LexTrace

/-! # Lemmas about what the lexer prints (C94) -/

namespace Verif
open Spec

namespace Lex

/-- The numbers printed for what is emitted: up to the first piece no token can be made of. -/
def Places (lx : Lex) (input : Str) : List (Nat × List Char × Nat) → List (Nat × Nat)
  | [] => []
  | p :: out => (p.1, p.1 + p.2.1.length - 1) ::
    match lx.piece input p with
    | .error _ => []
    | .ok _ => Places lx input out

theorem places_step (lx : Lex) (input : Str) (fuel : Nat) (st : LState) :
    places lx input (fuel + 1) st =
      match input[st.forward]? with
      | none =>
        match st.last with
        | some (li, _) => [(st.start, li)]
        | none => []
      | some c =>
        match lx.dfa.findEdge st.state c with
        | some e =>
          places lx input fuel
            { st with
              last := match lx.acceptOf e.dst with
                      | some a => some (st.forward, a)
                      | none => st.last
              state := e.dst
              forward := st.forward + 1 }
        | none =>
          match st.last with
          | some (li, la) => (st.start, li) ::
            match lx.makeTok input st.start li la with
            | .error _ => []
            | .ok tok => places lx input fuel
                { toks := st.toks ++ [tok], state := 0, start := li + 1, forward := li + 1, last := none }
          | none =>
            if isWhitespace c && st.forward == st.start then
              places lx input fuel { st with forward := st.forward + 1, start := st.start + 1 }
            else [] := by
  rw [places]
  cases input[st.forward]? <;> rfl

theorem places_end (lx : Lex) (input : Str) (fuel : Nat) (st : LState)
    (h : input[st.forward]? = none) : places lx input fuel st = (match st.last with | some (li, _) => [(st.start, li)] | none => []) := by
  unfold places; rw [h]; rfl

theorem places_inv_end {lx : Lex} {input : Str} {st : LState} (h : Inv lx input st)
    (hend : st.forward = input.length) : ∃ out dr, Run lx st.start (input.drop st.start) out dr ∧
    (match st.last with | some (li, _) => [(st.start, li)] | none => []) = Places lx input out := by
  have hle := h.le
  have htake : (input.drop st.start).take (st.forward - st.start) = input.drop st.start := by
    apply List.take_of_length_le; simp [hend]
  have hw := h.walk
  rw [htake] at hw
  have hlen : (input.drop st.start).length = st.forward - st.start := by simp [hend]
  cases hl : st.last with
  | none =>
    have hn := h.lastNone hl
    refine ⟨[], input.drop st.start, ?_, ?_⟩
    · cases hr : input.drop st.start with
      | nil => exact .done
      | cons c rest =>
        rw [hr] at hn hw hlen
        refine .stop ?_ ?_
        · rintro p a ⟨r, hp⟩ hacc
          have := prefix_eq_take hp
          rw [this] at hacc
          refine hn p.length a ?_ hacc
          have := congrArg List.length hp
          simp only [List.length_append] at this; omega
        · rintro ⟨_, hf⟩
          simp [Dfa.walk, hf] at hw
    · rfl
  | some q =>
    obtain ⟨li, la⟩ := q
    obtain ⟨h1, h2, h3, h4⟩ := h.lastSome li la hl
    refine ⟨[(st.start, (input.drop st.start).take (li + 1 - st.start), la)],
      (input.drop st.start).drop (li + 1 - st.start), ?_, ?_⟩
    · refine .tokEnd (longest_of (by omega) h3 ?_) (List.take_append_drop _ _).symm (by rw [hw]; rfl)
      intro k' b hk' hkl hacc
      exact h4 k' b hk' (by omega) hacc
    · have : st.start + (List.take (li + 1 - st.start) (List.drop st.start input)).length - 1 = li := by
        simp only [List.length_take, hlen]; omega
      simp only [Places, this]
      split <;> rfl

theorem places_run (lx : Lex) (input : Str) : ∀ (fuel : Nat) (st : LState), Inv lx input st →
    measure input st ≤ fuel → ∃ out dr, Run lx st.start (input.drop st.start) out dr ∧
    places lx input fuel st = Places lx input out := by
  intro fuel
  induction fuel with
  | zero =>
    intro st h hm
    have hend : st.forward = input.length := by
      have := h.len
      unfold measure at hm
      omega
    rw [places_end lx input 0 st (by rw [List.getElem?_eq_none]; omega)]
    exact places_inv_end h hend
  | succ fuel ih =>
    intro st h hm
    by_cases hend : st.forward = input.length
    · rw [places_end lx input _ st (by rw [List.getElem?_eq_none]; omega)]
      exact places_inv_end h hend
    have hlt : st.forward < input.length := by have := h.len; omega
    have hle := h.le
    have hlen : (input.drop st.start).length = input.length - st.start := by simp
    obtain ⟨c, hc⟩ : ∃ c, input[st.forward]? = some c := ⟨_, List.getElem?_eq_getElem hlt⟩
    have htk := take_succ_drop hle hc
    rw [places_step, hc]
    simp only
    cases he : lx.dfa.findEdge st.state c with
    | some e =>
      simp only
      have hwalk : lx.dfa.walk 0 ((input.drop st.start).take (st.forward + 1 - st.start)) = some e.dst := by
        rw [htk, Dfa.walk_snoc, h.walk]; simp [he]
      have hne : (input.drop st.start).take (st.forward + 1 - st.start) ≠ [] := by
        rw [htk]; simp
      refine ih
        { st with
          last := match lx.acceptOf e.dst with
                  | some a => some (st.forward, a)
                  | none => st.last
          state := e.dst
          forward := st.forward + 1 } ?_ ?_
      refine ⟨by simp only; omega, by simp only; omega, hwalk, ?_, ?_⟩
      · intro hl k' a hk' hacc
        simp only at hl hk' hacc
        cases ha : lx.acceptOf e.dst with
        | some b => simp [ha] at hl
        | none =>
          rw [ha] at hl
          simp only at hl
          by_cases hk2 : k' ≤ st.forward - st.start
          · exact h.lastNone hl k' a hk2 hacc
          · have : k' = st.forward + 1 - st.start := by omega
            subst this
            obtain ⟨_, t, ht, hta⟩ := hacc
            rw [hwalk] at ht; cases ht
            rw [ha] at hta; cases hta
      · intro li la hl
        simp only at hl ⊢
        cases ha : lx.acceptOf e.dst with
        | some b =>
          rw [ha] at hl
          simp only [Option.some.injEq, Prod.mk.injEq] at hl
          obtain ⟨rfl, rfl⟩ := hl
          refine ⟨hle, by omega, ⟨hne, _, hwalk, ha⟩, ?_⟩
          intro k' a h1 h2; omega
        | none =>
          rw [ha] at hl
          simp only at hl
          obtain ⟨h1, h2, h3, h4⟩ := h.lastSome li la hl
          refine ⟨h1, by omega, h3, ?_⟩
          intro k' a h5 h6 hacc
          by_cases hk2 : k' ≤ st.forward - st.start
          · exact h4 k' a h5 hk2 hacc
          · have : k' = st.forward + 1 - st.start := by omega
            subst this
            obtain ⟨_, t, ht, hta⟩ := hacc
            rw [hwalk] at ht; cases ht
            rw [ha] at hta; cases hta
      · unfold measure at hm ⊢
        simp only
        omega
    | none =>
      simp only
      have hstuck : lx.dfa.walk 0 ((input.drop st.start).take (st.forward - st.start + 1)) = none := by
        rw [show st.forward - st.start + 1 = st.forward + 1 - st.start from by omega, htk, Dfa.walk_snoc, h.walk]
        simp [he]
      cases hl : st.last with
      | some q =>
        obtain ⟨li, la⟩ := q
        obtain ⟨h1, h2, h3, h4⟩ := h.lastSome li la hl
        simp only
        have hpl : st.start + (List.take (li + 1 - st.start) (List.drop st.start input)).length = li + 1 := by
          simp only [List.length_take, hlen]; omega
        have hlong : LongestAcc lx (input.drop st.start) ((input.drop st.start).take (li + 1 - st.start)) la := by
          refine longest_of (by omega) h3 ?_
          intro k' b hk' _ hacc
          by_cases hk2 : k' ≤ st.forward - st.start
          · exact h4 k' b hk' hk2 hacc
          · exact stuck_acc hstuck (by omega) hacc
        have hnext : ∀ tok : Token, ∃ out dr, Run lx (li + 1) (input.drop (li + 1)) out dr ∧
            places lx input fuel
              { toks := st.toks ++ [tok], state := 0, start := li + 1, forward := li + 1, last := none } =
              Places lx input out := by
          intro tok
          refine ih { toks := st.toks ++ [tok], state := 0, start := li + 1, forward := li + 1, last := none } ?_ ?_
          refine ⟨Nat.le_refl _, by simp only; omega, by simp [Dfa.walk], ?_, by simp⟩
          · intro _ k' a hk' hacc
            simp only [Nat.sub_self, Nat.le_zero] at hk'
            subst hk'
            exact hacc.1 (by simp)
          · unfold measure at hm ⊢
            simp only
            have hms : (input.length - (li + 1)) * (input.length + 1) + (input.length - (li + 1)) <
                (input.length - st.start) * (input.length + 1) + (input.length - st.forward) :=
              mul_step (by omega) (by omega)
            omega
        have hdrop : (input.drop st.start).drop (li + 1 - st.start) = input.drop (li + 1) := by
          rw [List.drop_drop]; congr 1; omega
        cases hmk : lx.makeTok input st.start li la with
        | error er =>
          obtain ⟨out, dr, hr, _⟩ := hnext ⟨[], none⟩
          refine ⟨(st.start, (input.drop st.start).take (li + 1 - st.start), la) :: out, dr, ?_, ?_⟩
          · refine .tok hlong (List.take_append_drop _ _).symm (stuck_all hstuck) ?_
            rw [hpl, hdrop]; exact hr
          · simp only [Places, piece, hpl, Nat.add_sub_cancel, hmk]
        | ok tok =>
          obtain ⟨out, dr, hr, hres⟩ := hnext tok
          refine ⟨(st.start, (input.drop st.start).take (li + 1 - st.start), la) :: out, dr, ?_, ?_⟩
          · refine .tok hlong (List.take_append_drop _ _).symm (stuck_all hstuck) ?_
            rw [hpl, hdrop]; exact hr
          · simp only [Places, piece, hpl, Nat.add_sub_cancel, hmk]
            rw [hres]
      | none =>
        simp only
        have hcons : input.drop st.forward = c :: input.drop (st.forward + 1) := by
          rw [List.drop_eq_getElem_cons hlt]
          congr 1
          rw [List.getElem?_eq_getElem hlt] at hc
          exact Option.some.inj hc
        have hnone : ∀ p a, (∃ r, input.drop st.start = p ++ r) → ¬ lx.Acc p a := by
          rintro p a ⟨r, hp⟩ hacc
          rw [prefix_eq_take hp] at hacc
          by_cases hk2 : p.length ≤ st.forward - st.start
          · exact h.lastNone hl _ a hk2 hacc
          · exact stuck_acc hstuck (by omega) hacc
        by_cases hcond : (isWhitespace c && st.forward == st.start) = true
        · rw [if_pos hcond]
          simp only [Bool.and_eq_true, beq_iff_eq] at hcond
          obtain ⟨hws, hfs⟩ := hcond
          have hst : st.state = 0 := by
            have := h.walk
            rw [hfs] at this
            simpa [Dfa.walk] using this.symm
          obtain ⟨out, dr, hr, hres⟩ := ih { st with forward := st.forward + 1, start := st.start + 1, last := none }
            (by
              refine ⟨by simp only; omega, by simp only; omega, ?_, ?_, by simp⟩
              · simp [hfs, hst, Dfa.walk]
              · intro _ k' a hk' hacc
                simp only [hfs, Nat.sub_self, Nat.le_zero] at hk'
                subst hk'
                exact hacc.1 (by simp))
            (by
              unfold measure at hm ⊢
              simp only
              have hms : (input.length - (st.start + 1)) * (input.length + 1) + (input.length - (st.forward + 1)) <
                  (input.length - st.start) * (input.length + 1) + (input.length - st.forward) :=
                mul_step (by omega) (by omega)
              omega)
          refine ⟨out, dr, ?_, hres⟩
          rw [← hfs, hcons]
          refine .ws hws (by rw [← hst]; exact he) ?_
          simpa [hfs] using hr
        · rw [if_neg hcond]
          refine ⟨[], input.drop st.start, ?_, ?_⟩
          · have hne : input.drop st.start ≠ [] := by
              intro h0; have := congrArg List.length h0; simp at this; omega
            obtain ⟨c', rest, hcr⟩ := List.exists_cons_of_ne_nil hne
            rw [hcr] at hnone ⊢
            refine .stop hnone ?_
            rintro ⟨hw1, hw2⟩
            by_cases hfs : st.forward = st.start
            · rw [hfs] at hcons
              rw [hcons] at hcr
              cases hcr
              simp [hw1, hfs] at hcond
            · have hw := h.walk
              rw [hcr] at hw
              obtain ⟨j, hj⟩ : ∃ j, st.forward - st.start = j + 1 := ⟨st.forward - st.start - 1, by omega⟩
              rw [hj] at hw
              simp [Dfa.walk, hw2] at hw
          · rfl

/-- What is printed, for any automaton and any input. -/
theorem printed_run (lx : Lex) (input : Str) : ∃ out dr, Run lx 0 input out dr ∧
    lx.lexPrinted input = (Places lx input out).map placeText := by
  obtain ⟨out, dr, h1, h2⟩ := places_run lx input (lexFuel input) ⟨[], 0, 0, 0, none⟩
    ⟨Nat.le_refl _, by simp, by simp [Dfa.walk], by
      intro _ k' a hk' hacc
      simp only [Nat.sub_self, Nat.le_zero] at hk'
      subst hk'
      exact hacc.1 (by simp), by simp⟩
    (by
      unfold measure lexFuel
      simp only [Nat.sub_zero]
      have : (input.length + 1) * (input.length + 2) =
        input.length * (input.length + 1) + input.length + (input.length + 2) := by
        rw [Nat.mul_comm, Nat.add_mul]; omega
      omega)
  exact ⟨out, dr, by simpa using h1, by rw [lexPrinted, h2]⟩

variable {toks : List (TokenDef × Hir)} {lx : Lex} {N : Nfa} {acc : Nat → Nat} {al : List Match} {D : List (List Nat)} {s0 : List Nat}

/-- As `Made.munch`, piece by piece. -/
theorem Made.munch_pieces (M : Made toks lx N acc al D s0) (P : PCombined toks N acc) (full : Str) {k input out dr}
    (h : Run lx k input out dr) : ∃ out', Munch (PToken al toks) (PViable al toks) k input out' dr ∧
      List.Forall₂ (fun p p' => p.1 = p'.1 ∧ p.2.1 = p'.2.2 ∧ lx.piece full p = expected toks full p') out out' := by
  have viable : ∀ w, (lx.dfa.walk 0 w).isSome = true ↔ PViable al toks w := fun w => M.built.walk_reads P.leaves
  induction h with
  | done => exact ⟨[], .done, .nil⟩
  | ws h1 hf _ ih =>
    obtain ⟨out', h3, h4⟩ := ih
    refine ⟨out', .blank (blank_iff.mp h1) ?_ h3, h4⟩
    rw [← viable, walk_single]
    simpa using hf
  | tok h1 h2 h5 _ ih =>
    obtain ⟨out', h3, h4⟩ := ih
    obtain ⟨i, rfl, hm⟩ := M.plongest P h1
    obtain ⟨_, _, ⟨q, hi, _⟩, _⟩ := hm.2.2.1
    refine ⟨(_, i, _) :: out', .tok hm h2 ?_ h3, .cons ⟨rfl, rfl, M.piece hi h1.1.1⟩ h4⟩
    rw [← viable, h5]; simp
  | tokEnd h1 h2 h5 =>
    obtain ⟨i, rfl, hm⟩ := M.plongest P h1
    obtain ⟨_, _, ⟨q, hi, _⟩, _⟩ := hm.2.2.1
    exact ⟨[(_, i, _)], .tokEnd hm h2 ((viable _).mp h5), .cons ⟨rfl, rfl, M.piece hi h1.1.1⟩ .nil⟩
  | stop h1 h2 =>
    refine ⟨[], .stop ?_ ?_, .nil⟩
    · intro v i hne hvp hm
      exact h1 v _ hvp ((M.acc_iff P hne).mpr ⟨i, rfl, hm⟩)
    · rw [← blank_iff, ← viable, walk_single]
      simpa using h2

/-- Up to the first piece without a token, all of them if there is none. -/
theorem places_cut {full : Str} {out : List (Nat × List Char × Nat)} {out' : List (Nat × Nat × List Char)}
    (h : List.Forall₂ (fun p p' => p.1 = p'.1 ∧ p.2.1 = p'.2.2 ∧ lx.piece full p = expected toks full p') out out') :
    ∃ n, Places lx full out = (out'.take n).map (fun p => (p.1, p.1 + p.2.2.length - 1)) ∧
      ((n = out'.length ∧ ∀ p ∈ out', ∃ t, Carries toks full p t) ∨
        ∃ m p, n = m + 1 ∧ out'[m]? = some p ∧ (¬ ∃ t, Carries toks full p t) ∧ ∀ q ∈ out'.take m, ∃ t, Carries toks full q t) := by
  induction h with
  | nil => exact ⟨0, rfl, .inl ⟨rfl, by simp⟩⟩
  | @cons p p' out out' h1 _ ih =>
    obtain ⟨e1, e2, e3⟩ := h1
    obtain ⟨n, i1, i2⟩ := ih
    cases hx : expected toks full p' with
    | error e =>
      refine ⟨1, by simp [Places, e3, hx, e1, e2], .inr ⟨0, p', rfl, rfl, ?_, by simp⟩⟩
      rintro ⟨t, ht⟩
      rw [← expected_iff, hx] at ht; cases ht
    | ok t =>
      have ht : ∃ t, Carries toks full p' t := ⟨t, expected_iff.mp hx⟩
      refine ⟨n + 1, by simp [Places, e3, hx, e1, e2, i1], ?_⟩
      rcases i2 with ⟨rfl, i2⟩ | ⟨m, q, rfl, i2, i3, i4⟩
      · refine .inl ⟨rfl, fun x hx => ?_⟩
        rcases List.mem_cons.mp hx with rfl | hx
        · exact ht
        · exact i2 x hx
      · refine .inr ⟨m + 1, q, rfl, by simpa using i2, i3, fun x hx => ?_⟩
        rw [List.take_succ_cons] at hx
        rcases List.mem_cons.mp hx with rfl | hx
        · exact ht
        · exact i4 x hx

end Lex
end Verif
