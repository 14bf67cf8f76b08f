import Verif.Proofs.Progress

/-! # When the loop of `parse_impl` does not end -/

namespace Verif.Lalr
open Verif Spec Grammar ItemSet

variable {g : Grammar} {action : Table Nat Action} {got : Table Str Nat} {lalr : List ItemSet}
  {look : ItemSet → Sym → Option Nat}

/-- A reduction by a body of one symbol replaces the top of the stack. -/
theorem step_unit {toks : List Nat} {st st' : PState} (hs : step g action got toks st = .ok (some st')) {p : Nat}
    {prod : Production} (ho : st'.out = st.out ++ [p]) (hp : g.prods[p]? = some prod) (hi : prod.inputs.length = 1) :
    ∃ s t rest j, st.stack = s :: t :: rest ∧ got.tryIndex t prod.name = some j ∧
      st' = ⟨j :: t :: rest, st.i, st.a, st.out ++ [p]⟩ := by
  unfold step at hs
  split at hs
  · cases hs
  · rename_i s tl hst
    split at hs
    · simp only [nextToken, Except.ok.injEq, Option.some.injEq] at hs
      subst hs
      simp at ho
    · rename_i q _
      split at hs
      · cases hs
      · rename_i prod' hq
        split at hs
        · cases hs
        · split at hs
          · cases hs
          · rename_i t rest hd
            split at hs
            · cases hs
            · rename_i j hj
              simp only [Except.ok.injEq, Option.some.injEq] at hs
              subst hs
              simp only [List.append_cancel_left_eq, List.cons.injEq, and_true] at ho
              subst ho
              rw [hp] at hq; cases hq
              rw [hi, hst, List.drop_succ_cons, List.drop_zero] at hd
              exact ⟨s, t, rest, j, by rw [hst, hd], hj, rfl⟩
    · cases hs
    · cases hs

/-- An iteration does not look at the list of reductions. -/
theorem step_out {toks : List Nat} {st st' : PState} (hs : step g action got toks st = .ok (some st')) (out : List Nat) :
    ∃ out', step g action got toks { st with out := out } = .ok (some { st' with out := out' }) := by
  obtain ⟨stk, i, a, o⟩ := st
  cases stk with
  | nil => cases hs
  | cons s tl =>
    simp only [step] at hs ⊢
    cases ha : action.tryIndex s a with
    | none => simp [ha] at hs
    | some act =>
      cases act with
      | shift j =>
        simp only [ha, nextToken, Except.ok.injEq, Option.some.injEq] at hs ⊢
        subst hs
        exact ⟨out, rfl⟩
      | accept => simp [ha] at hs
      | reduce q =>
        simp only [ha] at hs ⊢
        cases hq : g.prods[q]? with
        | none => simp [hq] at hs
        | some prod =>
          simp only [hq] at hs ⊢
          split at hs
          · cases hs
          · rename_i hl
            simp only [if_neg hl]
            cases hd : List.drop prod.inputs.length (s :: tl) with
            | nil => simp [hd] at hs
            | cons t rest =>
              simp only [hd] at hs ⊢
              cases hj : got.tryIndex t prod.name with
              | none => simp [hj] at hs
              | some j =>
                simp only [hj, Except.ok.injEq, Option.some.injEq] at hs ⊢
                subst hs
                exact ⟨_, rfl⟩

theorem runs_out {toks : List Nat} {n : Nat} {st st' : PState} (hr : Runs g action got toks n st st') :
    ∀ out, ∃ out', Runs g action got toks n { st with out := out } { st' with out := out' } := by
  induction hr with
  | refl => exact fun out => ⟨out, .refl⟩
  | head hs _ ih =>
    intro out
    obtain ⟨o1, h1⟩ := step_out hs out
    obtain ⟨o2, h2⟩ := ih o1
    exact ⟨o2, .head h1 h2⟩

/-- A run that comes back never ends. -/
theorem run_back {toks : List Nat} {k : Nat} {st st' : PState} (hr : Runs g action got toks (k + 1) st st')
    (h1 : st'.stack = st.stack) (h2 : st'.i = st.i) (h3 : st'.a = st.a) :
    ∀ fuel out, run g action got toks fuel { st with out := out } = .error .outOfFuel := by
  intro fuel
  induction fuel using Nat.strong_induction_on with
  | _ fuel ih =>
    intro out
    obtain ⟨o, hr'⟩ := runs_out hr out
    by_cases hlt : k + 1 ≤ fuel
    · obtain ⟨m, rfl⟩ := Nat.exists_eq_add_of_le hlt
      rw [hr'.run]
      have : ({ st' with out := o } : PState) = { st with out := o } := by
        cases st; cases st'; simp_all
      rw [this]
      exact ih m (by omega) o
    · clear ih h1 h2 h3 hr
      have key : ∀ {n : Nat} {a b : PState}, Runs g action got toks n a b → ∀ fuel, fuel ≤ n →
          run g action got toks fuel a = .error .outOfFuel := by
        intro n a b h
        induction h with
        | refl => intro fuel hf; obtain rfl : fuel = 0 := by omega
                  rfl
        | head hs _ ih =>
          intro fuel hf
          cases fuel with
          | zero => rfl
          | succ f => simp only [run, hs]; exact ih f (by omega)
      exact key hr' fuel (by omega)

/-- What is kept about the unit reductions since the last other iteration. -/
structure Seen (g : Grammar) (action : Table Nat Action) (got : Table Str Nat) (toks : List Nat) (st0 st : PState)
    (X : Option Sym) (V : List Nat) : Prop where
  nodup : V.Nodup
  back : ∀ p ∈ V, ∃ prod s tl j k stp, g.prods[p]? = some prod ∧ st.stack = s :: tl ∧
    Runs g action got toks j st0 stp ∧ Runs g action got toks k stp st ∧
    (∃ t rest b, tl = t :: rest ∧ got.tryIndex t prod.name = some b ∧ stp.stack = b :: tl) ∧ stp.i = st.i ∧ stp.a = st.a ∧
    ∃ A, X = some (.nonTerm A) ∧ (A = prod.name ∨ UnitPlus (Rule g.prods) A (.nonTerm prod.name))

/-- A run longer than the bound comes back to where it was, by unit reductions along a cycle. -/
theorem run_loops (h : GOk g) (hT : TabSound g lalr action got look) {toks : List Nat} {n : Nat} (hn : toks[n]? = some 0)
    {st0 : PState} : ∀ (fuel : Nat) {j0 : Nat} {st : PState} {f : Forest} {w : List Nat} {V : List Nat},
    Runs g action got toks j0 st0 st → Inv g lalr look toks st f w → st.i ≤ n →
    Seen g action got toks st0 st (f.roots g.prods).getLast? V →
    (2 * (n - st.i) + (f.roots g.prods).length) * (g.prods.length + 1) + (g.prods.length - V.length) < fuel →
    run g action got toks fuel st = .error .outOfFuel →
    ∃ j k st1 st2, Runs g action got toks j st0 st1 ∧ Runs g action got toks (k + 1) st1 st2 ∧
      st2.stack = st1.stack ∧ st2.i = st1.i ∧ st2.a = st1.a ∧ ∃ A, UnitPlus (Rule g.prods) A (.nonTerm A)
  | 0, _, _, _, _, _, _, _, _, _, hm, _ => by omega
  | fuel + 1, j0, st, f, w, V, hr0, hI, hi, hV, hm, hrun => by
    rcases step_spec h hT hI with ⟨st1, f1, w1, h1, h2, h3⟩ | ⟨h1, _⟩ | h1 | ⟨h1, _⟩
    · simp only [run, h1] at hrun
      have hr1 := hr0.trans (.head h1 .refl)
      have hnil : ∀ X, Seen g action got toks st0 st1 X [] := fun X => ⟨List.nodup_nil, by simp⟩
      have hmul : ∀ a b : Nat, a < b → a * (g.prods.length + 1) + g.prods.length < b * (g.prods.length + 1) := by
        intro a b hab
        have := Nat.mul_le_mul_right (g.prods.length + 1) hab
        rw [Nat.succ_mul] at this
        omega
      cases h3 with
      | @shift j t k1 k2 =>
        have hlt : st.i < n := by
          by_contra hge
          have hcur := hI.cur
          have := (List.getElem?_eq_some_iff.mp hn).1
          rw [Nat.min_eq_left (by omega), show st.i = n by omega, hn] at hcur
          rw [← Option.some.inj hcur, h.tok0] at k1
          cases k1
          exact k2
        refine run_loops h hT hn fuel hr1 h2 hlt (hnil _) ?_ hrun
        have := hmul (2 * (n - (st.i + 1)) + ((f.append (.leaf t .nil)).roots g.prods).length)
          (2 * (n - st.i) + (f.roots g.prods).length)
          (by simp only [Forest.roots_append, Forest.roots, List.length_append, List.length_cons, List.length_nil]; omega)
        simp only [List.length_nil, Nat.sub_zero]
        omega
      | @reduce p prod f1 f2 stk k1 k2 k3 k4 =>
        have hb := h.body prod (List.mem_of_getElem? k1)
        subst k3
        by_cases hlen : 1 < prod.inputs.length
        · refine run_loops h hT hn fuel hr1 h2 hi (hnil _) ?_ hrun
          have := hmul (2 * (n - st.i) + ((f1.append (.node p f2 .nil)).roots g.prods).length)
            (2 * (n - st.i) + ((f1.append f2).roots g.prods).length)
            (by simp only [Forest.roots_append, Forest.roots, List.length_append, List.length_cons, List.length_nil, k4]; omega)
          simp only [List.length_nil, Nat.sub_zero]
          omega
        · obtain ⟨X, hX⟩ : ∃ X, prod.inputs = [X] := by
            match hpi : prod.inputs with
            | [] => exact absurd hpi hb
            | [X] => exact ⟨X, rfl⟩
            | _ :: _ :: _ => rw [hpi] at hlen; simp at hlen
          obtain ⟨s, t, rest, b, e1, e2, e3⟩ := step_unit h1 rfl k1 (by simp [hX])
          have e4 : stk = b :: t :: rest := by
            have := congrArg PState.stack e3
            exact this
          subst e4
          have hlast : ((f1.append f2).roots g.prods).getLast? = some X := by
            simp [Forest.roots_append, k4, hX]
          have hrule : Rule g.prods prod.name [X] := ⟨prod, List.mem_of_getElem? k1, rfl, hX⟩
          by_cases hmem : p ∈ V
          · obtain ⟨prod', s', tl, j, k, stp, g1, g2, g3, g4, ⟨t', rest', b', g5, g6, g7⟩, g8, g9, A, g10, g11⟩ := hV.back p hmem
            rw [k1] at g1; cases g1
            rw [e1] at g2; cases g2
            cases g5
            rw [e2] at g6; cases g6
            refine ⟨j, k, stp, _, g3, g4.trans (.head h1 .refl), g7.symm, g8.symm, g9.symm, ?_⟩
            rw [hlast] at g10; cases g10
            rcases g11 with rfl | g11
            · exact ⟨_, .one hrule⟩
            · exact ⟨_, .cons hrule g11⟩
          · have hV' : Seen g action got toks st0 ⟨b :: t :: rest, st.i, st.a, st.out ++ [p]⟩
                ((f1.append (.node p f2 .nil)).roots g.prods).getLast? (p :: V) := by
              have hlast' : ((f1.append (.node p f2 .nil)).roots g.prods).getLast? = some (.nonTerm prod.name) := by
                simp [Forest.roots_append, Forest.roots, k1]
              refine ⟨List.nodup_cons.mpr ⟨hmem, hV.nodup⟩, ?_⟩
              intro q hq
              rcases List.mem_cons.mp hq with rfl | hq
              · exact ⟨prod, b, t :: rest, _, 0, _, k1, rfl, hr1, .refl, ⟨t, rest, b, rfl, e2, rfl⟩, rfl, rfl, _, hlast', .inl rfl⟩
              · obtain ⟨prod', s', tl, j, k, stp, g1, g2, g3, g4, g5, g8, g9, A, g10, g11⟩ := hV.back q hq
                rw [e1] at g2; cases g2
                rw [hlast] at g10; cases g10
                refine ⟨prod', b, t :: rest, j, k + 1, stp, g1, rfl, g3, g4.trans (.head h1 .refl), g5, g8, g9, _, hlast', .inr ?_⟩
                rcases g11 with rfl | g11
                · exact .one hrule
                · exact .cons hrule g11
            have hcard : (p :: V).length ≤ g.prods.length := by
              have hsub : (p :: V) ⊆ List.range g.prods.length := by
                intro q hq
                rw [List.mem_range]
                rcases List.mem_cons.mp hq with rfl | hq
                · exact (List.getElem?_eq_some_iff.mp k1).1
                · obtain ⟨prod', _, _, _, _, _, g1, _⟩ := hV.back q hq
                  exact (List.getElem?_eq_some_iff.mp g1).1
              have := (List.subperm_of_subset hV'.nodup hsub).length_le
              simpa using this
            refine run_loops h hT hn fuel hr1 h2 hi hV' ?_ hrun
            have : ((f1.append (.node p f2 .nil)).roots g.prods).length = ((f1.append f2).roots g.prods).length := by
              simp [Forest.roots_append, Forest.roots, k4, hX]
            rw [this]
            simp only [List.length_cons] at hcard ⊢
            omega
    · simp [run, h1] at hrun
    · simp [run, h1] at hrun
    · simp [run, h1] at hrun

end Verif.Lalr
