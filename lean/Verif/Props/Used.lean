import Verif.Proofs.UsedOk
import Verif.Proofs.RenameText
import Verif.Props.Parse

/-! # C30 once more: only unit cycles that can be reached matter -/

namespace Verif.Props
open Verif Verif.Spec

section
variable {H : Type} [DecidableEq H] {hash : List Item → H} {ps : List Ast.Prod}
  {start : Ast.Prod} {g : Grammar} {depth : Nat} {action : Table Nat Action} {got : Table Str Nat} {states : List ItemSet}

/-- C30, for grammars without unit cycles that can be reached from the start, whatever the hash: with the end marker at position `n` the loop
ends within `(2n + 1)(P + 1)` iterations, `P` the number of productions.  Missing: unit cycles that can be reached (`C30_false`). -/
theorem C30_reachable_partial (hB : Built hash ps start g depth action got states)
    (hu : ∀ A, Uses (AstRule ps) start.name A → ¬ UnitPlus (AstRule ps) A (.nonTerm A)) {toks : List Nat} {n : Nat} (hn : toks[n]? = some 0)
    {fuel : Nat} (hf : (2 * n + 1) * (g.prods.length + 1) ≤ fuel) :
    Lalr.parseIdx g action got fuel toks ≠ .error .outOfFuel := by
  have hok := hB.ok
  obtain ⟨lr, m, hlr, hm, hl⟩ := Lalr.makeTables_ok hB.tables
  have hM := Lalr.mergedAny_of hok hlr hm
  have hT := Lalr.tabSound_of hok hM hl
  refine hB.terminates hT (R := UsedRule ps start g) (fun A hA => ?_) ?_ hn hf
  · obtain ⟨h1, h2⟩ := unit_used hok hB.ast hB.first hA
    obtain ⟨h3, h4⟩ := h2 fun e => h1 (by rw [e])
    exact hu A h3 h4
  · intro st st' f w p prod X hI hs ho hp hi
    obtain ⟨s, hsm, q, la, p', hh, hq, hn', hi'⟩ := Lalr.step_used hok hT hI hs ho hp
    obtain ⟨t, ht, hht⟩ := hM.has s hsm _ _ hh
    have := reach_used hok hB.ast hB.first (hM.lrreach t ht) _ _ hht p' hq
    rwa [hn', hi', hi] at this

end

/-! ## Sample -/

/-- `S → "x" T`, `T → "y"`, and a unit cycle aside: `A → B | "a"`, `B → A`. -/
def asideAst : List Ast.Prod :=
  [mkProd true "S" [["x", "T"]], mkProd false "T" [["y"]], mkProd false "A" [["B"], ["a"]], mkProd false "B" [["A"]]]

theorem aside_tables : Lalr.makeTables id (lower asideAst) (Lalr.depthOf (lower asideAst)) = .ok (tablesOf (lower asideAst)) :=
  ok_of_isSome (by decide +kernel)

theorem aside_built : Built id asideAst (startOf asideAst) (lower asideAst) (Lalr.depthOf (lower asideAst))
    (tablesOf (lower asideAst)).1 (tablesOf (lower asideAst)).2.1 (tablesOf (lower asideAst)).2.2 :=
  built_of (expressibleB_sound (by decide +kernel)) (by decide +kernel) (ok_of_isSome (by decide +kernel)) aside_tables

-- C30_reachable_partial: a grammar with a unit cycle, which C30_terminates_partial leaves out.
example : (∀ A, Uses (AstRule asideAst) (startOf asideAst).name A → ¬ UnitPlus (AstRule asideAst) A (.nonTerm A)) ∧
    UnitPlus (AstRule asideAst) "A".toList (.nonTerm "A".toList) := by
  have hR : ∀ x ∈ rulesOf asideAst, AstRule asideAst x.1 x.2 := fun x hx => astRule_iff.2 hx
  refine ⟨fun A hA hu => ?_, .cons (hR ("A".toList, [.nonTerm "B".toList]) (by decide +kernel))
    (.one (hR ("B".toList, [.nonTerm "A".toList]) (by decide +kernel)))⟩
  have hST : A = "S".toList ∨ A = "T".toList := by
    clear hu
    have hnext : ∀ x ∈ rulesOf asideAst, (x.1 = "S".toList ∨ x.1 = "T".toList) → ∀ X ∈ x.2,
        X = .nonTerm "T".toList ∨ X = .strLit "x".toList ∨ X = .strLit "y".toList := by decide +kernel
    generalize hS : (startOf asideAst).name = S at hA
    induction hA with
    | refl => exact .inl (hS.symm.trans (by decide +kernel))
    | tail _ hr hm ih =>
      rcases hnext _ (astRule_iff.1 hr) ih _ hm with h | h | h
      · exact .inr (Sym.nonTerm.inj h)
      · cases h
      · cases h
  have hone : ∀ x ∈ rulesOf asideAst, (x.1 = "S".toList ∨ x.1 = "T".toList) → ∀ B, x.2 ≠ [.nonTerm B] := by
    have : ∀ x ∈ rulesOf asideAst, (x.1 = "S".toList ∨ x.1 = "T".toList) → x.2.length = 2 ∨ x.2 = [.strLit "y".toList] := by decide +kernel
    intro x hx h B e
    rcases this x hx h with k | k
    · rw [e] at k; simp at k
    · rw [e] at k; cases k
  cases hu with
  | one h => exact hone _ (astRule_iff.1 h) hST _ rfl
  | cons h _ => exact hone _ (astRule_iff.1 h) hST _ rfl

end Verif.Props
