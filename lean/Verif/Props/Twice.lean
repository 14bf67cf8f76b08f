import Verif.Proofs.TwiceOk
import Verif.Props.Idle

/-! # Property: a rule that is written twice is refused (C89) -/

namespace Verif.Props
open Verif Verif.Spec

section
variable {H : Type} [DecidableEq H] {hash : List Item → H} {rx : Str → Option Hir} {ord : Nfa.Order} {ps : List Ast.Prod}
  {start : Ast.Prod} {g : Grammar}

/-- **C89.**  If the same rule (whatever the names of its parameters and its code) is written twice for a nonterminal that the start
symbol leads to, no parser is built. -/
theorem C89_refused (he : Expressible ps) (hf : ps.find? (fun p => p.isStart) = some start) (hg : Grammar.fromAst ps = .ok g)
    (ho : Reorders ord) (hc : NoCollisions hash g (Lalr.depthOf g)) {A : Str} {r : List Sym}
    (hu : Uses (AstRule ps) start.name A) (h2 : 1 < (rulesOf ps).count (A, r)) : ∀ l, Lalr.new hash rx ord g ≠ .ok l := by
  intro l hl
  obtain ⟨_, hb, hcl⟩ := (new_iff (hash := hash) (rx := rx) he hf hg ho hc).1.1 ⟨l, hl⟩
  exact hcl (clash_of_twice he hf hg hb hu h2)

/-- C89: the reason is a conflict, if there is no other reason to stop. -/
theorem C89_conflict (he : Expressible ps) (hf : ps.find? (fun p => p.isStart) = some start) (hg : Grammar.fromAst ps = .ok g)
    (ho : Reorders ord) (hc : NoCollisions hash g (Lalr.depthOf g)) {A : Str} {r : List Sym}
    (hu : Uses (AstRule ps) start.name A) (h2 : 1 < (rulesOf ps).count (A, r)) (hx : RegexesOk rx ps)
    (hb : Buildable (AstRule ps) start.name) : Lalr.new hash rx ord g = .error .conflict :=
  (new_iff he hf hg ho hc).2.1.2 ⟨hx, hb, clash_of_twice he hf hg hb hu h2⟩

end

/-! ## Sample -/

/-- `S → "x" W`, `W → <a: "y"> | <b: "y">`. -/
def repeatAst : List Ast.Prod :=
  [⟨"S".toList, [⟨[.strLit "x".toList, .nonTerm "W".toList], "w".toList⟩], true, "T".toList⟩,
   ⟨"W".toList, [⟨[.named (some "a".toList) (.strLit "y".toList)], "a".toList⟩,
      ⟨[.named (some "b".toList) (.strLit "y".toList)], "b".toList⟩], false, "string".toList⟩]

-- C89: the hypotheses.
example : Expressible repeatAst ∧ repeatAst.find? (fun p => p.isStart) = some (startOf repeatAst) ∧
    Grammar.fromAst repeatAst = .ok (lower repeatAst) ∧ Reorders (fun _ l => l) ∧
    NoCollisions id (lower repeatAst) (Lalr.depthOf (lower repeatAst)) ∧ Uses (AstRule repeatAst) (startOf repeatAst).name "W".toList ∧
    1 < (rulesOf repeatAst).count ("W".toList, [.strLit "y".toList]) ∧
    Lalr.new id (fun _ => none) (fun _ l => l) (lower repeatAst) = .error .conflict := by
  refine ⟨expressibleB_sound (by decide +kernel), startOf_eq (by decide +kernel), ok_of_isSome (by decide +kernel), reorders_id,
    noCollisions_id _ _, ?_, by decide +kernel, error_of (by decide +kernel)⟩
  have h0 : (startOf repeatAst).name = "S".toList := by decide +kernel
  rw [h0]
  exact .tail (B := "S".toList) (rhs := [.strLit "x".toList, .nonTerm "W".toList]) .refl (astRule_iff.2 (by decide +kernel)) (by decide)

/-- Written twice for a nonterminal that nothing leads to, a rule does no harm: `W` in `S → "x"`, `W → "x" | "x"`. -/
theorem C89_unused : ∃ ps l, Generated id (fun _ => none) (fun _ l => l) ps (startOf ps) (lower ps) l ∧
    1 < (rulesOf ps).count ("W".toList, [.strLit "x".toList]) :=
  ⟨[mkProd true "S" [["x"]], mkProd false "W" [["x"], ["x"]]], genL [mkProd true "S" [["x"]], mkProd false "W" [["x"], ["x"]]],
    ⟨expressibleB_sound (by decide +kernel), startOf_eq (by decide +kernel), ok_of_isSome (by decide +kernel), ok_of_isSome (by decide +kernel)⟩,
    by decide +kernel⟩

end Verif.Props
