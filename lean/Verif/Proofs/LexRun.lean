import Verif.Proofs.DfaTest
import Mathlib.Tactic.ByContra

/-! The lexer loop as a relation over walks of the DFA, for an arbitrary `Lex`. -/

namespace Verif
open Spec

namespace Lex

/-- A non-empty string is accepted, with accepting NFA state `a`. -/
def Acc (lx : Lex) (p : List Char) (a : Nat) : Prop :=
  p ≠ [] ∧ ∃ t, lx.dfa.walk 0 p = some t ∧ lx.acceptOf t = some a

/-- `w` is the longest accepted prefix of `input`. -/
def LongestAcc (lx : Lex) (input w : List Char) (a : Nat) : Prop :=
  lx.Acc w a ∧ (∃ r, input = w ++ r) ∧
  ∀ p b, (∃ r, input = p ++ r) → w.length < p.length → ¬ lx.Acc p b

/-- What the loop does, as a relation: input at offset `k`, emitted
`(offset, text, accepting state)`, dropped rest. -/
inductive Run (lx : Lex) : Nat → List Char → List (Nat × List Char × Nat) → List Char → Prop
  | done {k} : Run lx k [] [] []
  | ws {k c rest out dr} : isWhitespace c = true → lx.dfa.findEdge 0 c = none →
      Run lx (k + 1) rest out dr → Run lx k (c :: rest) out dr
  | tok {k input w a rest out dr} : LongestAcc lx input w a → input = w ++ rest →
      lx.dfa.walk 0 input = none → Run lx (k + w.length) rest out dr →
      Run lx k input ((k, w, a) :: out) dr
  | tokEnd {k input w a rest} : LongestAcc lx input w a → input = w ++ rest →
      (lx.dfa.walk 0 input).isSome = true → Run lx k input [(k, w, a)] rest
  | stop {k c rest} : (∀ p a, (∃ r, c :: rest = p ++ r) → ¬ lx.Acc p a) →
      ¬ (isWhitespace c = true ∧ lx.dfa.findEdge 0 c = none) → Run lx k (c :: rest) [] (c :: rest)

/-- The token produced for an emitted piece. -/
def piece (lx : Lex) (input : Str) (p : Nat × List Char × Nat) : Res Token :=
  lx.makeTok input p.1 (p.1 + p.2.1.length - 1) p.2.2

/-- After the loop (src/lex/lex.rs:211-221). -/
def finish (lx : Lex) (input : Str) (r : Res LState) : Res (List Token) := do
  let st ← r
  match st.last with
  | some (li, la) => do
    let tok ← lx.makeTok input st.start li la
    return st.toks ++ [tok]
  | none => return st.toks

theorem lex_eq_finish (lx : Lex) (input : Str) :
    lx.lex input = lx.finish input (lexLoop lx input (lexFuel input) ⟨[], 0, 0, 0, none⟩) := rfl

/-- Loop invariant. -/
structure Inv (lx : Lex) (input : Str) (st : LState) : Prop where
  le : st.start ≤ st.forward
  len : st.forward ≤ input.length
  walk : lx.dfa.walk 0 ((input.drop st.start).take (st.forward - st.start)) = some st.state
  lastNone : st.last = none → ∀ k' a, k' ≤ st.forward - st.start →
    ¬ lx.Acc ((input.drop st.start).take k') a
  lastSome : ∀ li la, st.last = some (li, la) → st.start ≤ li ∧ li < st.forward ∧
    lx.Acc ((input.drop st.start).take (li + 1 - st.start)) la ∧
    ∀ k' a, li + 1 - st.start < k' → k' ≤ st.forward - st.start →
      ¬ lx.Acc ((input.drop st.start).take k') a

/-- Iterations still needed. -/
def measure (input : Str) (st : LState) : Nat :=
  (input.length - st.start) * (input.length + 1) + (input.length - st.forward)

theorem take_succ_drop {input : Str} {s f : Nat} {c : Char} (hsf : s ≤ f) (hc : input[f]? = some c) :
    (input.drop s).take (f + 1 - s) = (input.drop s).take (f - s) ++ [c] := by
  rw [show f + 1 - s = f - s + 1 from by omega, List.take_add_one]
  congr 1
  rw [List.getElem?_drop, show s + (f - s) = f from by omega, hc]; rfl

theorem prefix_eq_take {input p r : List Char} (h : input = p ++ r) : p = input.take p.length := by
  rw [h]; simp

theorem acc_len {lx : Lex} {p a} (h : lx.Acc p a) : 0 < p.length := List.length_pos_iff.mpr h.1

/-- Prefixes of a walkable string are walkable. -/
theorem walk_prefix {d : Dfa} : ∀ {p r : List Char} {s t : Nat}, d.walk s (p ++ r) = some t →
    ∃ u, d.walk s p = some u
  | [], _, s, _, _ => ⟨s, rfl⟩
  | c :: p, r, s, t, h => by
    simp only [List.cons_append, Dfa.walk] at h ⊢
    cases he : d.findEdge s c with
    | none => simp [he] at h
    | some e => rw [he] at h; exact walk_prefix h

/-- Nothing longer than the point where the walk gets stuck is accepted. -/
theorem stuck_acc {lx : Lex} {rest : List Char} {k k' : Nat} {a : Nat}
    (h : lx.dfa.walk 0 (rest.take (k + 1)) = none) (hk : k < k') : ¬ lx.Acc (rest.take k') a := by
  rintro ⟨_, t, ht, _⟩
  have : rest.take k' = rest.take (k + 1) ++ (rest.take k').drop (k + 1) := by
    have := (List.take_append_drop (k + 1) (rest.take k')).symm
    rwa [List.take_take, Nat.min_eq_left (by omega)] at this
  rw [this] at ht
  obtain ⟨u, hu⟩ := walk_prefix ht
  rw [h] at hu; cases hu

theorem stuck_all {d : Dfa} {rest : List Char} {k : Nat} (h : d.walk 0 (rest.take k) = none) :
    d.walk 0 rest = none := by
  cases hw : d.walk 0 rest with
  | none => rfl
  | some t =>
    rw [← List.take_append_drop k rest] at hw
    obtain ⟨u, hu⟩ := walk_prefix hw
    rw [h] at hu; cases hu

theorem longest_of {lx : Lex} {rest : List Char} {n : Nat} {a : Nat} (hn : n ≤ rest.length)
    (h1 : lx.Acc (rest.take n) a) (h2 : ∀ k' b, n < k' → k' ≤ rest.length → ¬ lx.Acc (rest.take k') b) :
    LongestAcc lx rest (rest.take n) a := by
  refine ⟨h1, ⟨rest.drop n, (List.take_append_drop n rest).symm⟩, ?_⟩
  rintro p b ⟨r, hr⟩ hlt hacc
  rw [prefix_eq_take hr] at hacc
  have hpl := congrArg List.length hr
  simp only [List.length_append] at hpl
  refine h2 p.length b ?_ (by omega) hacc
  simp only [List.length_take] at hlt
  omega

theorem lexLoop_step (lx : Lex) (input : Str) (fuel : Nat) (st : LState) :
    lexLoop lx input (fuel + 1) st =
      match input[st.forward]? with
      | none => .ok st
      | some c =>
        match lx.dfa.findEdge st.state c with
        | some e =>
          lexLoop lx input fuel
            { st with
              last := match lx.acceptOf e.dst with
                      | some a => some (st.forward, a)
                      | none => st.last
              state := e.dst
              forward := st.forward + 1 }
        | none =>
          match st.last with
          | some (li, la) => do
            let tok ← lx.makeTok input st.start li la
            lexLoop lx input fuel
              { toks := st.toks ++ [tok], state := 0, start := li + 1, forward := li + 1, last := none }
          | none =>
            if isWhitespace c && st.forward == st.start then
              lexLoop lx input fuel { st with forward := st.forward + 1, start := st.start + 1 }
            else .ok st := by
  rw [lexLoop]
  cases input[st.forward]? <;> rfl

theorem lexLoop_end (lx : Lex) (input : Str) (fuel : Nat) (st : LState)
    (h : input[st.forward]? = none) : lexLoop lx input fuel st = .ok st := by
  unfold lexLoop; rw [h]

/-- Result of finishing, given what has been emitted. -/
def Result (lx : Lex) (input : Str) (pre : List Token) (out : List (Nat × List Char × Nat)) :
    Res (List Token) := do
  let ts ← out.mapM (lx.piece input)
  return pre ++ ts

theorem result_nil (lx : Lex) (input : Str) (pre : List Token) : Result lx input pre [] = .ok pre := by
  simp [Result, bind, Except.bind, pure, Except.pure]

theorem result_cons (lx : Lex) (input : Str) (pre : List Token)
    (p : Nat × List Char × Nat) (out : List (Nat × List Char × Nat)) :
    Result lx input pre (p :: out) =
      Except.bind (lx.piece input p) fun t => Result lx input (pre ++ [t]) out := by
  simp only [Result, List.mapM_cons, bind, Except.bind, pure, Except.pure]
  cases lx.piece input p with
  | error e => rfl
  | ok t =>
    simp only
    cases List.mapM (lx.piece input) out <;> simp

theorem inv_end {lx : Lex} {input : Str} {st : LState} (h : Inv lx input st)
    (hend : st.forward = input.length) : ∃ out dr, Run lx st.start (input.drop st.start) out dr ∧
    finish lx input (.ok st) = Result lx input st.toks out := by
  have hle := h.le
  have htake : (input.drop st.start).take (st.forward - st.start) = input.drop st.start := by
    apply List.take_of_length_le; simp [hend]
  have hw := h.walk
  rw [htake] at hw
  have hlen : (input.drop st.start).length = st.forward - st.start := by simp [hend]
  cases hl : st.last with
  | none =>
    have hn := h.lastNone hl
    refine ⟨[], input.drop st.start, ?_, ?_⟩
    · cases hr : input.drop st.start with
      | nil => exact .done
      | cons c rest =>
        rw [hr] at hn hw hlen
        refine .stop ?_ ?_
        · rintro p a ⟨r, hp⟩ hacc
          have := prefix_eq_take hp
          rw [this] at hacc
          refine hn p.length a ?_ hacc
          have := congrArg List.length hp
          simp only [List.length_append] at this; omega
        · rintro ⟨_, hf⟩
          simp [Dfa.walk, hf] at hw
    · simp [finish, hl, result_nil, bind, Except.bind, pure, Except.pure]
  | some q =>
    obtain ⟨li, la⟩ := q
    obtain ⟨h1, h2, h3, h4⟩ := h.lastSome li la hl
    refine ⟨[(st.start, (input.drop st.start).take (li + 1 - st.start), la)],
      (input.drop st.start).drop (li + 1 - st.start), ?_, ?_⟩
    · refine .tokEnd (longest_of (by omega) h3 ?_) (List.take_append_drop _ _).symm (by rw [hw]; rfl)
      intro k' b hk' hkl hacc
      exact h4 k' b hk' (by omega) hacc
    · rw [result_cons]
      simp only [result_nil]
      have : st.start + (List.take (li + 1 - st.start) (List.drop st.start input)).length - 1 = li := by
        simp only [List.length_take, hlen]; omega
      simp only [finish, hl, piece, this, bind, Except.bind, pure, Except.pure]

theorem mul_step {a b m x y : Nat} (h : a < b) (hx : x < m) : a * m + x < b * m + y := by
  have : (a + 1) * m ≤ b * m := Nat.mul_le_mul_right m h
  rw [Nat.succ_mul] at this
  omega

theorem lexLoop_run (lx : Lex) (input : Str) : ∀ (fuel : Nat) (st : LState), Inv lx input st →
    measure input st ≤ fuel → ∃ out dr, Run lx st.start (input.drop st.start) out dr ∧
    finish lx input (lexLoop lx input fuel st) = Result lx input st.toks out := by
  intro fuel
  induction fuel with
  | zero =>
    intro st h hm
    have hend : st.forward = input.length := by
      have := h.len
      unfold measure at hm
      omega
    rw [lexLoop_end lx input 0 st (by rw [List.getElem?_eq_none]; omega)]
    exact inv_end h hend
  | succ fuel ih =>
    intro st h hm
    by_cases hend : st.forward = input.length
    · rw [lexLoop_end lx input _ st (by rw [List.getElem?_eq_none]; omega)]
      exact inv_end h hend
    have hlt : st.forward < input.length := by have := h.len; omega
    have hle := h.le
    have hlen : (input.drop st.start).length = input.length - st.start := by simp
    obtain ⟨c, hc⟩ : ∃ c, input[st.forward]? = some c := ⟨_, List.getElem?_eq_getElem hlt⟩
    have htk := take_succ_drop hle hc
    rw [lexLoop_step, hc]
    simp only
    cases he : lx.dfa.findEdge st.state c with
    | some e =>
      simp only
      have hwalk : lx.dfa.walk 0 ((input.drop st.start).take (st.forward + 1 - st.start)) = some e.dst := by
        rw [htk, Dfa.walk_snoc, h.walk]; simp [he]
      have hne : (input.drop st.start).take (st.forward + 1 - st.start) ≠ [] := by
        rw [htk]; simp
      refine ih
        { st with
          last := match lx.acceptOf e.dst with
                  | some a => some (st.forward, a)
                  | none => st.last
          state := e.dst
          forward := st.forward + 1 } ?_ ?_
      refine ⟨by simp only; omega, by simp only; omega, hwalk, ?_, ?_⟩
      · intro hl k' a hk' hacc
        simp only at hl hk' hacc
        cases ha : lx.acceptOf e.dst with
        | some b => simp [ha] at hl
        | none =>
          rw [ha] at hl
          simp only at hl
          by_cases hk2 : k' ≤ st.forward - st.start
          · exact h.lastNone hl k' a hk2 hacc
          · have : k' = st.forward + 1 - st.start := by omega
            subst this
            obtain ⟨_, t, ht, hta⟩ := hacc
            rw [hwalk] at ht; cases ht
            rw [ha] at hta; cases hta
      · intro li la hl
        simp only at hl ⊢
        cases ha : lx.acceptOf e.dst with
        | some b =>
          rw [ha] at hl
          simp only [Option.some.injEq, Prod.mk.injEq] at hl
          obtain ⟨rfl, rfl⟩ := hl
          refine ⟨hle, by omega, ⟨hne, _, hwalk, ha⟩, ?_⟩
          intro k' a h1 h2; omega
        | none =>
          rw [ha] at hl
          simp only at hl
          obtain ⟨h1, h2, h3, h4⟩ := h.lastSome li la hl
          refine ⟨h1, by omega, h3, ?_⟩
          intro k' a h5 h6 hacc
          by_cases hk2 : k' ≤ st.forward - st.start
          · exact h4 k' a h5 hk2 hacc
          · have : k' = st.forward + 1 - st.start := by omega
            subst this
            obtain ⟨_, t, ht, hta⟩ := hacc
            rw [hwalk] at ht; cases ht
            rw [ha] at hta; cases hta
      · unfold measure at hm ⊢
        simp only
        omega
    | none =>
      simp only
      have hstuck : lx.dfa.walk 0 ((input.drop st.start).take (st.forward - st.start + 1)) = none := by
        rw [show st.forward - st.start + 1 = st.forward + 1 - st.start from by omega, htk, Dfa.walk_snoc, h.walk]
        simp [he]
      cases hl : st.last with
      | some q =>
        obtain ⟨li, la⟩ := q
        obtain ⟨h1, h2, h3, h4⟩ := h.lastSome li la hl
        simp only
        have hpl : st.start + (List.take (li + 1 - st.start) (List.drop st.start input)).length = li + 1 := by
          simp only [List.length_take, hlen]; omega
        have hlong : LongestAcc lx (input.drop st.start) ((input.drop st.start).take (li + 1 - st.start)) la := by
          refine longest_of (by omega) h3 ?_
          intro k' b hk' _ hacc
          by_cases hk2 : k' ≤ st.forward - st.start
          · exact h4 k' b hk' hk2 hacc
          · exact stuck_acc hstuck (by omega) hacc
        have hnext : ∀ tok : Token, ∃ out dr, Run lx (li + 1) (input.drop (li + 1)) out dr ∧
            finish lx input (lexLoop lx input fuel
              { toks := st.toks ++ [tok], state := 0, start := li + 1, forward := li + 1, last := none }) =
              Result lx input (st.toks ++ [tok]) out := by
          intro tok
          refine ih { toks := st.toks ++ [tok], state := 0, start := li + 1, forward := li + 1, last := none } ?_ ?_
          refine ⟨Nat.le_refl _, by simp only; omega, by simp [Dfa.walk], ?_, by simp⟩
          · intro _ k' a hk' hacc
            simp only [Nat.sub_self, Nat.le_zero] at hk'
            subst hk'
            exact hacc.1 (by simp)
          · unfold measure at hm ⊢
            simp only
            have hms : (input.length - (li + 1)) * (input.length + 1) + (input.length - (li + 1)) <
                (input.length - st.start) * (input.length + 1) + (input.length - st.forward) :=
              mul_step (by omega) (by omega)
            omega
        have hdrop : (input.drop st.start).drop (li + 1 - st.start) = input.drop (li + 1) := by
          rw [List.drop_drop]; congr 1; omega
        cases hmk : lx.makeTok input st.start li la with
        | error er =>
          obtain ⟨out, dr, hr, _⟩ := hnext ⟨[], none⟩
          refine ⟨(st.start, (input.drop st.start).take (li + 1 - st.start), la) :: out, dr, ?_, ?_⟩
          · refine .tok hlong (List.take_append_drop _ _).symm (stuck_all hstuck) ?_
            rw [hpl, hdrop]; exact hr
          · rw [result_cons]
            simp only [piece, hpl, Nat.add_sub_cancel, hmk, finish, bind, Except.bind]
        | ok tok =>
          obtain ⟨out, dr, hr, hres⟩ := hnext tok
          refine ⟨(st.start, (input.drop st.start).take (li + 1 - st.start), la) :: out, dr, ?_, ?_⟩
          · refine .tok hlong (List.take_append_drop _ _).symm (stuck_all hstuck) ?_
            rw [hpl, hdrop]; exact hr
          · rw [result_cons]
            simp only [piece, hpl, Nat.add_sub_cancel, hmk, bind, Except.bind]
            exact hres
      | none =>
        simp only
        have hcons : input.drop st.forward = c :: input.drop (st.forward + 1) := by
          rw [List.drop_eq_getElem_cons hlt]
          congr 1
          rw [List.getElem?_eq_getElem hlt] at hc
          exact Option.some.inj hc
        have hnone : ∀ p a, (∃ r, input.drop st.start = p ++ r) → ¬ lx.Acc p a := by
          rintro p a ⟨r, hp⟩ hacc
          rw [prefix_eq_take hp] at hacc
          by_cases hk2 : p.length ≤ st.forward - st.start
          · exact h.lastNone hl _ a hk2 hacc
          · exact stuck_acc hstuck (by omega) hacc
        by_cases hcond : (isWhitespace c && st.forward == st.start) = true
        · rw [if_pos hcond]
          simp only [Bool.and_eq_true, beq_iff_eq] at hcond
          obtain ⟨hws, hfs⟩ := hcond
          have hst : st.state = 0 := by
            have := h.walk
            rw [hfs] at this
            simpa [Dfa.walk] using this.symm
          obtain ⟨out, dr, hr, hres⟩ := ih { st with forward := st.forward + 1, start := st.start + 1, last := none }
            (by
              refine ⟨by simp only; omega, by simp only; omega, ?_, ?_, by simp⟩
              · simp [hfs, hst, Dfa.walk]
              · intro _ k' a hk' hacc
                simp only [hfs, Nat.sub_self, Nat.le_zero] at hk'
                subst hk'
                exact hacc.1 (by simp))
            (by
              unfold measure at hm ⊢
              simp only
              have hms : (input.length - (st.start + 1)) * (input.length + 1) + (input.length - (st.forward + 1)) <
                  (input.length - st.start) * (input.length + 1) + (input.length - st.forward) :=
                mul_step (by omega) (by omega)
              omega)
          refine ⟨out, dr, ?_, hres⟩
          rw [← hfs, hcons]
          refine .ws hws (by rw [← hst]; exact he) ?_
          simpa [hfs] using hr
        · rw [if_neg hcond]
          refine ⟨[], input.drop st.start, ?_, ?_⟩
          · have hne : input.drop st.start ≠ [] := by
              intro h0; have := congrArg List.length h0; simp at this; omega
            obtain ⟨c', rest, hcr⟩ := List.exists_cons_of_ne_nil hne
            rw [hcr] at hnone ⊢
            refine .stop hnone ?_
            rintro ⟨hw1, hw2⟩
            by_cases hfs : st.forward = st.start
            · rw [hfs] at hcons
              rw [hcons] at hcr
              cases hcr
              simp [hw1, hfs] at hcond
            · have hw := h.walk
              rw [hcr] at hw
              obtain ⟨j, hj⟩ : ∃ j, st.forward - st.start = j + 1 := ⟨st.forward - st.start - 1, by omega⟩
              rw [hj] at hw
              simp [Dfa.walk, hw2] at hw
          · simp [finish, hl, result_nil, bind, Except.bind, pure, Except.pure]

/-- The lexer, for any automaton and any input, follows `Run`. -/
theorem lex_run (lx : Lex) (input : Str) : ∃ out dr, Run lx 0 input out dr ∧
    lx.lex input = out.mapM (lx.piece input) := by
  obtain ⟨out, dr, h1, h2⟩ := lexLoop_run lx input (lexFuel input) ⟨[], 0, 0, 0, none⟩
    ⟨Nat.le_refl _, by simp, by simp [Dfa.walk], by
      intro _ k' a hk' hacc
      simp only [Nat.sub_self, Nat.le_zero] at hk'
      subst hk'
      exact hacc.1 (by simp), by simp⟩
    (by
      unfold measure lexFuel
      simp only [Nat.sub_zero]
      have : (input.length + 1) * (input.length + 2) =
        input.length * (input.length + 1) + input.length + (input.length + 2) := by
        rw [Nat.mul_comm, Nat.add_mul]; omega
      omega)
  refine ⟨out, dr, by simpa using h1, ?_⟩
  rw [lex_eq_finish, h2]
  simp only [Result, List.nil_append, bind, Except.bind, pure, Except.pure]
  cases List.mapM (lx.piece input) out <;> rfl

end Lex
end Verif
