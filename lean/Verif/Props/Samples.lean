import Verif.Props.Items

/-! Sample grammars used as witnesses, and executable checks of hypotheses. -/

namespace Verif.Props
open Verif Spec

/-- Executable form of `Expressible`. -/
def expressibleB (ps : List Ast.Prod) : Bool :=
  ps.all fun p => !p.name.contains '\'' && p.bodies.all fun b => !b.inputs.isEmpty &&
    b.inputs.all fun s => match s.lower with
      | .nonTerm A => !A.contains '\''
      | .strLit _ => true
      | .regex _ => true
      | _ => false

theorem expressibleB_sound {ps : List Ast.Prod} (h : expressibleB ps = true) : Expressible ps := by
  simp only [expressibleB, List.all_eq_true, Bool.and_eq_true] at h
  intro p hp
  obtain ⟨h1, h2⟩ := h p hp
  refine ⟨by simpa using h1, fun b hb => ?_⟩
  obtain ⟨h3, h4⟩ := h2 b hb
  refine ⟨by simpa using h3, fun s hs => ?_⟩
  have h5 := h4 s hs
  cases hl : s.lower <;> simp_all

/-- Executable form of `FirstTerminates`. -/
def firstB (g : Grammar) : Bool :=
  g.prods.all fun p =>
    (p.inputs.all fun s => match s with
      | .nonTerm A => g.prods.any fun q => q.name == A
      | _ => true) &&
    (p.inputs.all fun s => match s with
      | .nonTerm B => (g.first (Lalr.depthOf g) [.nonTerm B]).toOption.isSome
      | _ => true)

theorem firstB_sound {g : Grammar} (h : firstB g = true) : FirstTerminates g := by
  simp only [firstB, List.all_eq_true, Bool.and_eq_true] at h
  refine ⟨fun p hp A hA => ?_, fun p hp i A B _ h2 => ?_⟩
  · have := (h p hp).1 _ hA
    simp only [List.any_eq_true, beq_iff_eq] at this
    obtain ⟨q, hq, hn⟩ := this
    exact ⟨q.inputs, q, hq, hn, rfl⟩
  · have := (h p hp).2 _ (List.mem_of_getElem? h2)
    simp only at this
    refine ⟨Lalr.depthOf g, ?_⟩
    cases hr : g.first (Lalr.depthOf g) [.nonTerm B] with
    | ok s => exact ⟨s, rfl⟩
    | error e => simp [hr, Except.toOption] at this

theorem ok_of_isSome {α : Type} {r : Res α} {d : α} (h : r.toOption.isSome = true) : r = .ok (r.toOption.getD d) := by
  cases r with
  | error e => cases h
  | ok a => rfl

theorem collisionFree_id (sets : List ItemSet) : CollisionFree id sets := fun _ _ _ _ h => h

/-- A production without code; lower-case names are string literals. -/
def mkProd (start : Bool) (name : String) (bodies : List (List String)) : Ast.Prod :=
  ⟨name.toList, bodies.map fun b => ⟨b.map fun s =>
    if s.toList.all Char.isLower then .strLit s.toList else .nonTerm s.toList, []⟩, start, []⟩

/-- The lowered grammar. -/
def lower (ps : List Ast.Prod) : Grammar := (Grammar.fromAst ps).toOption.getD ⟨[], [], [], []⟩

/-- The tables. -/
def tablesOf (g : Grammar) : Table Nat Action × Table Str Nat × List ItemSet :=
  (Lalr.makeTables id g (Lalr.depthOf g)).toOption.getD ([], [], [])

/-- `S → "a" "b" | "a" "c"`: LALR(1), even LR(0). -/
def abAst : List Ast.Prod := [mkProd true "S" [["a", "b"], ["a", "c"]]]

/-- Three LR(1) contexts of `C → "c"`: `S → "x" B "p" | "y" B "q" | "b" C "r"`,
`B → "b" C`, `C → "c"`. -/
def threeAst : List Ast.Prod :=
  [mkProd true "S" [["x", "B", "p"], ["y", "B", "q"], ["b", "C", "r"]], mkProd false "B" [["b", "C"]],
   mkProd false "C" [["c"]]]

/-- A unit cycle `A → A` whose conflict is hidden by dropped transitions. -/
def loopAst : List Ast.Prod :=
  [mkProd true "S" [["x", "X", "p"], ["y", "X", "q"], ["z", "Z", "r"], ["w", "Z", "s"], ["u", "Y", "v"], ["t", "Y", "k"]],
   mkProd false "Z" [["X"], ["Y"]], mkProd false "X" [["A", "b"]], mkProd false "Y" [["A", "e"]],
   mkProd false "A" [["A"], ["c"]]]

/-- A grammar in which a dropped goto is met. -/
def gotoAst : List Ast.Prod :=
  [mkProd true "S" [["x", "B", "p"], ["y", "B", "q"], ["b", "C", "r"], ["w", "D", "E"]], mkProd false "B" [["b", "C"]],
   mkProd false "C" [["D"]], mkProd false "D" [["c"]], mkProd false "E" [["p"], ["q"]]]

theorem ab_expressible : Expressible abAst := expressibleB_sound (by decide +kernel)
theorem ab_fromAst : Grammar.fromAst abAst = .ok (lower abAst) := ok_of_isSome (by decide +kernel)
theorem ab_first : FirstTerminates (lower abAst) := firstB_sound (by decide +kernel)

theorem three_expressible : Expressible threeAst := expressibleB_sound (by decide +kernel)
theorem three_fromAst : Grammar.fromAst threeAst = .ok (lower threeAst) := ok_of_isSome (by decide +kernel)
theorem three_first : FirstTerminates (lower threeAst) := firstB_sound (by decide +kernel)
theorem three_tables : Lalr.makeTables id (lower threeAst) (Lalr.depthOf (lower threeAst)) =
    .ok (tablesOf (lower threeAst)) := ok_of_isSome (by decide +kernel)

theorem loop_expressible : Expressible loopAst := expressibleB_sound (by decide +kernel)
theorem loop_fromAst : Grammar.fromAst loopAst = .ok (lower loopAst) := ok_of_isSome (by decide +kernel)
theorem loop_tables : Lalr.makeTables id (lower loopAst) (Lalr.depthOf (lower loopAst)) =
    .ok (tablesOf (lower loopAst)) := ok_of_isSome (by decide +kernel)

theorem goto_expressible : Expressible gotoAst := expressibleB_sound (by decide +kernel)
theorem goto_fromAst : Grammar.fromAst gotoAst = .ok (lower gotoAst) := ok_of_isSome (by decide +kernel)
theorem goto_tables : Lalr.makeTables id (lower gotoAst) (Lalr.depthOf (lower gotoAst)) =
    .ok (tablesOf (lower gotoAst)) := ok_of_isSome (by decide +kernel)

end Verif.Props
