import Verif.Model.Report
import Verif.Proofs.TableRows
import Verif.Proofs.Progress

/-! The tokens reported as valid. -/

namespace Verif
open Spec Grammar ItemSet

theorem Table.mem_valid {κ ν : Type} [DecidableEq κ] [BOrd κ] [LawfulBOrd κ] {t : Table κ ν} {i : Nat} {k : κ} :
    k ∈ (t.valid i).getD [] ↔ ∃ v, t.tryIndex i k = some v := by
  unfold Table.valid Table.tryIndex
  cases mget i t with
  | none => simp
  | some row =>
    simp only [Option.map_some, Option.getD_some]
    rw [← mget_isSome_iff, Option.isSome_iff_exists]

namespace Lalr
variable {g : Grammar} {action : Table Nat Action} {got : Table Str Nat}

theorem runs_trans {toks : List Nat} {n m : Nat} {a b c : PState} (h1 : Runs g action got toks n a b)
    (h2 : Runs g action got toks m b c) : Runs g action got toks (n + m) a c := by
  induction h1 with
  | refl => rwa [Nat.zero_add]
  | head hs _ ih => rw [Nat.add_right_comm]; exact .head hs (ih h2)

/-- Where a run fails is determined. -/
theorem runs_error_unique {toks : List Nat} {n m : Nat} {a b c : PState} {e e' : Err}
    (h1 : Runs g action got toks n a b) (hb : step g action got toks b = .error e)
    (h2 : Runs g action got toks m a c) (hc : step g action got toks c = .error e') : b = c := by
  induction h1 generalizing m with
  | refl =>
    cases h2 with
    | refl => rfl
    | head hs _ => rw [hb] at hs; cases hs
  | head hs _ ih =>
    cases h2 with
    | refl => rw [hc] at hs; cases hs
    | head hs' h2 => rw [hs] at hs'; cases hs'; exact ih hb h2

theorem step_i {toks : List Nat} {st st' : PState} (hs : step g action got toks st = .ok (some st')) :
    (st'.i = st.i + 1 ∧ ∃ s tl j, st.stack = s :: tl ∧ action.tryIndex s st.a = some (.shift j) ∧
      st'.stack = j :: st.stack ∧ st'.out = st.out ∧ st'.a = (toks[st.i + 1]?).getD st.a) ∨
    (st'.i = st.i ∧ st'.a = st.a) := by
  unfold step at hs
  split at hs <;> try cases hs
  rename_i s tl hst
  split at hs
  · rename_i j hj
    simp only [nextToken, Except.ok.injEq, Option.some.injEq] at hs
    subst hs
    exact .inl ⟨rfl, s, tl, j, hst, hj, by rw [hst], rfl, rfl⟩
  · split at hs <;> try cases hs
    split at hs <;> try cases hs
    split at hs <;> try cases hs
    split at hs <;> try cases hs
    exact .inr ⟨rfl, rfl⟩
  · cases hs
  · cases hs

/-- The last shift of a run: before it another token was current, since then nothing was shifted. -/
theorem last_shift {toks : List Nat} {n : Nat} {a b : PState} (h : Runs g action got toks n a b) :
    ∃ m c, m ≤ n ∧ Runs g action got toks m a c ∧ Runs g action got toks (n - m) c b ∧ c.i = b.i ∧
      ((m = 0 ∧ c = a) ∨ ∃ m' d, m = m' + 1 ∧ Runs g action got toks m' a d ∧
        step g action got toks d = .ok (some c) ∧ d.i + 1 = c.i) := by
  induction h with
  | refl => exact ⟨0, _, Nat.le_refl _, .refl, .refl, rfl, .inl ⟨rfl, rfl⟩⟩
  | @head n st st1 st2 hs hr ih =>
    obtain ⟨m, c, h1, h2, h3, h4, h5⟩ := ih
    rcases h5 with ⟨rfl, rfl⟩ | ⟨m', d, rfl, h5, h6, h7⟩
    · rcases step_i hs with h8 | h8
      · exact ⟨1, c, by omega, .head hs .refl, by simpa using h3, h4, .inr ⟨0, st, rfl, .refl, hs, h8.1.symm⟩⟩
      · exact ⟨0, st, Nat.zero_le _, .refl, .head hs (by simpa using hr), by rw [← h8.1]; exact h4, .inl ⟨rfl, rfl⟩⟩
    · refine ⟨m' + 2, c, by omega, .head hs h2, ?_, h4, .inr ⟨m' + 1, d, rfl, .head hs h5, h6, h7⟩⟩
      rw [show n + 1 - (m' + 2) = n - (m' + 1) by omega]; exact h3

/-- A shift with another token behind the one shifted. -/
theorem step_other {toks toks' : List Nat} {st st' : PState} {b : Nat}
    (hs : step g action got toks st = .ok (some st')) (hi : st.i + 1 = st'.i) (hb : toks'[st'.i]? = some b) :
    step g action got toks' st = .ok (some { st' with a := b }) := by
  unfold step at hs ⊢
  split at hs <;> try cases hs
  split at hs
  · simp only [nextToken, Except.ok.injEq, Option.some.injEq] at hs ⊢
    subst hs
    simp only at hb
    simp only [hb, Option.getD_some]
  · split at hs <;> try cases hs
    split at hs <;> try cases hs
    split at hs <;> try cases hs
    split at hs <;> try cases hs
    simp at hi
  · cases hs
  · cases hs

/-- The run up to the last shift, with other tokens behind the one shifted. -/
theorem runs_other {toks toks' : List Nat} {m : Nat} {a c : PState} (ha : startState toks = .ok a)
    (h5 : (m = 0 ∧ c = a) ∨ ∃ m' d, m = m' + 1 ∧ Runs g action got toks m' a d ∧
        step g action got toks d = .ok (some c) ∧ d.i + 1 = c.i)
    (hag : ∀ k < c.i, toks'[k]? = toks[k]?) {b : Nat} (hb : toks'[c.i]? = some b) :
    ∃ a', startState toks' = .ok a' ∧ Runs g action got toks' m a' { c with a := b } := by
  rcases h5 with ⟨rfl, rfl⟩ | ⟨m', d, rfl, h5, h6, h7⟩
  · cases toks with
    | nil => cases ha
    | cons x l =>
      cases ha
      cases toks' with
      | nil => simp at hb
      | cons y l' =>
        simp only [List.getElem?_cons_zero, Option.some.injEq] at hb
        subst hb
        exact ⟨_, rfl, .refl⟩
  · have hr := runs_congr h5 (toks' := toks') fun k hk => hag k (by omega)
    refine ⟨a, ?_, runs_trans hr (.head (step_other h6 h7 hb) .refl)⟩
    have h0 := hag 0 (by omega)
    cases toks with
    | nil => cases ha
    | cons x l =>
      cases ha
      cases toks' with
      | nil => simp at h0
      | cons y l' =>
        simp only [List.getElem?_cons_zero, Option.some.injEq] at h0
        subst h0; rfl

/-- A run that ends well has an entry at every configuration it goes through. -/
theorem run_entry {toks : List Nat} {n fuel : Nat} {a c r : PState} (h : Runs g action got toks n a c)
    (hr : run g action got toks fuel a = .ok r) :
    ∃ s tl v, c.stack = s :: tl ∧ action.tryIndex s c.a = some v := by
  induction h generalizing fuel with
  | @refl st =>
    cases fuel with
    | zero => cases hr
    | succ fuel =>
      unfold run at hr
      cases hs : step g action got toks st with
      | error e => simp [hs] at hr
      | ok o =>
        unfold step at hs
        split at hs
        · cases hs
        · rename_i s tl hst
          cases ht : action.tryIndex s st.a with
          | none => simp [ht] at hs
          | some v => exact ⟨s, tl, v, hst, ht⟩
  | head hs _ ih =>
    cases fuel with
    | zero => cases hr
    | succ fuel =>
      unfold run at hr
      simp only [hs] at hr
      exact ih hr

end Lalr
end Verif
