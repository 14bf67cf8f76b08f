import Verif.Proofs.DebugOk
import Verif.Props.Lisp

/-! # Colliding hashes (C62)

`merge_cores` (src/lalr/table.rs:211-242) groups the LR(1) sets by a 64-bit hash of their cores and
never compares the cores themselves. -/

namespace Verif.Props
open Verif Spec

section
variable {H : Type} [DecidableEq H] {hash : List Item → H} {ps : List Ast.Prod} {g : Grammar}
  {rx : Str → Option Hir} {ord : Nfa.Order} {l : Lalr}

/-- C62.  In a debug build the assertion in `union` and the `unwrap` below it catch every collision: a
parser is built exactly when the release build builds it and no two different cores have one hash. -/
theorem C62_debug (he : Expressible ps) (hg : Grammar.fromAst ps = .ok g) :
    Lalr.newDebug hash rx ord g = .ok l ↔
      Lalr.new hash rx ord g = .ok l ∧ NoCollisions hash g (Lalr.depthOf g) := by
  unfold Lalr.newDebug Lalr.new Lalr.makeTablesDebug Lalr.makeTables NoCollisions
  cases g.lexer rx ord with
  | error e => simp [bind, Except.bind]
  | ok lx =>
    cases hlr : ItemSet.items g (Lalr.depthOf g) with
    | error e => simp [bind, Except.bind]
    | ok lr =>
      have hw := fun s hs => ((C22_items_exact he hg _ hlr).2.1 s hs).1
      constructor
      · intro h
        cases hm : Lalr.mergeCoresDebug hash lr with
        | error e => simp [hm, bind, Except.bind] at h
        | ok r =>
          obtain ⟨h1, h2⟩ := Lalr.mergeCoresDebug_ok hash hw hm
          simp only [bind, Except.bind, hm] at h
          simp only [bind, Except.bind, h1]
          exact ⟨h, fun lr' h' => by cases h'; exact h2⟩
      · rintro ⟨h, hc⟩
        simp only [bind, Except.bind, Lalr.mergeCoresDebug_of hash (hc lr rfl)]
        exact h

/-- C62.  So a debug build ends with one parser or none, whatever the hash and the order in which hash
sets are iterated: the one of the hash that keeps all cores apart. -/
theorem C62_unique (he : Expressible ps) (hg : Grammar.fromAst ps = .ok g) (ho : Reorders ord)
    (h : Lalr.newDebug hash rx ord g = .ok l) : Lalr.new id rx (fun _ l => l) g = .ok l := by
  obtain ⟨h1, h2⟩ := (C62_debug he hg).mp h
  rw [← h1]
  exact C45_new he hg (fun lr _ => collisionFree_id lr) h2 (fun _ l => by simp) ho rx

/-- C62.  In a release build sets end in one state only if the core of the first of them is part of
the cores of all the others. -/
theorem C62_silent (he : Expressible ps) (hg : Grammar.fromAst ps = .ok g) (h : Lalr.new hash rx ord g = .ok l)
    {lr : List ItemSet} (hlr : ItemSet.items g (Lalr.depthOf g) = .ok lr) {s : ItemSet} (hs : s ∈ lr) :
    ∃ f ∈ lr, hash (coreOf f) = hash (coreOf s) ∧
      ∀ t ∈ lr, hash (coreOf t) = hash (coreOf s) → ∀ it ∈ coreOf f, it ∈ coreOf t := by
  obtain ⟨_, _, h3⟩ := new_ok h
  obtain ⟨lr', m, e1, e2, _⟩ := Lalr.makeTables_ok h3
  rw [hlr] at e1; cases e1
  exact Lalr.mergeCores_sub hash (fun s hs => ((C22_items_exact he hg _ hlr).2.1 s hs).1) e2 hs

/-- C62, in a release build, when no core is a proper part of another: whatever the hash, there is one
parser or a panic.  Missing: cores that are parts of others (`C62_false`). -/
theorem C62_release_partial (he : Expressible ps) (hg : Grammar.fromAst ps = .ok g) (ho : Reorders ord)
    (hn : ∀ lr, ItemSet.items g (Lalr.depthOf g) = .ok lr → ∀ s ∈ lr, ∀ t ∈ lr,
      (∀ it ∈ coreOf s, it ∈ coreOf t) → coreOf s = coreOf t)
    (h : Lalr.new hash rx ord g = .ok l) : Lalr.new id rx (fun _ l => l) g = .ok l := by
  refine C62_unique he hg ho ((C62_debug he hg).mpr ⟨h, fun lr hlr s hs t ht e => ?_⟩)
  obtain ⟨f, hf, e1, e2⟩ := C62_silent he hg h hlr hs
  exact (hn lr hlr f hf s hs (e2 s hs rfl)).symm.trans (hn lr hlr f hf t ht (e2 t ht e.symm))

end

/-! ## Samples -/

/-- `S → "a" W | "b" Z`, `W → V`, `V → "c"`, `Z → W "e" | V "d"`. -/
def partAst : List Ast.Prod :=
  [mkProd true "S" [["a", "W"], ["b", "Z"]], mkProd false "W" [["V"]], mkProd false "V" [["c"]],
    mkProd false "Z" [["W", "e"], ["V", "d"]]]

/-- A hash that confuses the cores `{W → V·}` and `{W → V·, Z → V·"d"}` and no others. -/
def partHash (c : List Item) : Option (List Item) := if c = [(3, 1)] ∨ c = [(3, 1), (6, 1)] then none else some c

/-- The lexer of the samples: their terminals are single letters. -/
def partL : Lalr := (Lalr.new partHash (fun _ => none) (fun _ l => l) (lower partAst)).toOption.getD
  ⟨⟨[], [], [], []⟩, ⟨⟨[], [], [], []⟩, [], []⟩, [], [], []⟩

theorem part_expressible : Expressible partAst := expressibleB_sound (by decide +kernel)

theorem part_fromAst : Grammar.fromAst partAst = .ok (lower partAst) := ok_of_isSome (by decide +kernel)

theorem part_new : Lalr.new partHash (fun _ => none) (fun _ l => l) (lower partAst) = .ok partL :=
  ok_of_isSome (by decide +kernel)

/-- A parse tree of `b c d`. -/
def partTree : Forest :=
  .node 2 (.leaf (.strLit "b".toList) (.node 6 (.node 4 (.leaf (.strLit "c".toList) .nil)
    (.leaf (.strLit "d".toList) .nil)) .nil)) .nil

theorem part_sentence : Sentence (AstRule partAst) (startOf partAst).name (lits ["b", "c", "d"]) :=
  sentence_of part_expressible part_fromAst (startOf_eq (by decide +kernel)) (f := partTree) (tree_of (by decide +kernel))

/-- Decides `AllTransitions`. -/
def transB (g : Grammar) (states : List ItemSet) (action : Table Nat Action) (got : Table Str Nat) : Bool :=
  (List.range states.length).all fun i => (ItemSet.core (states.getD i [])).all fun it =>
    match g.prods[it.1]? with
    | none => true
    | some p => match p.inputs[it.2]? with
      | none => true
      | some (.nonTerm A) => (got.tryIndex i A).isSome
      | some x => (List.range g.tokens.length).any fun k => decide (g.tokens[k]? = some x) &&
          (match action.tryIndex i k with | some (.shift _) => true | _ => false)

theorem transB_sound {g : Grammar} {states : List ItemSet} {action : Table Nat Action} {got : Table Str Nat}
    (h : transB g states action got = true) : AllTransitions g states action got := by
  intro i s it la p x hs ⟨las, hm, _⟩ hp hx
  have hi := (List.getElem?_eq_some_iff.mp hs).1
  have h1 := List.all_eq_true.mp h i (List.mem_range.mpr hi)
  rw [List.getD_eq_getElem?_getD, hs] at h1
  have h2 := List.all_eq_true.mp h1 it (List.mem_map_of_mem (f := Prod.fst) hm)
  rw [hp] at h2
  simp only [hx] at h2
  constructor
  · rintro A rfl
    exact Option.isSome_iff_exists.mp h2
  · intro hA
    have h3 : (List.range g.tokens.length).any (fun k => decide (g.tokens[k]? = some x) &&
          (match action.tryIndex i k with | some (.shift _) => true | _ => false)) = true := by
      cases x with
      | nonTerm A => exact absurd rfl (hA A)
      | _ => exact h2
    obtain ⟨k, _, h4⟩ := List.any_eq_true.mp h3
    simp only [Bool.and_eq_true, decide_eq_true_eq] at h4
    obtain ⟨h5, h6⟩ := h4
    split at h6
    next j e => exact ⟨k, j, h5, e⟩
    next => cases h6

/-- The parser of the same grammar with a hash that keeps all cores apart. -/
def wholeL : Lalr := (Lalr.new id (fun _ => none) (fun _ l => l) (lower partAst)).toOption.getD
  ⟨⟨[], [], [], []⟩, ⟨⟨[], [], [], []⟩, [], []⟩, [], [], []⟩

theorem part_generated : Generated partHash (fun _ => none) (fun _ l => l) partAst (startOf partAst) (lower partAst) partL :=
  ⟨part_expressible, startOf_eq (by decide +kernel), part_fromAst, part_new⟩

theorem whole_generated : Generated id (fun _ => none) (fun _ l => l) partAst (startOf partAst) (lower partAst) wholeL :=
  ⟨part_expressible, startOf_eq (by decide +kernel), part_fromAst, ok_of_isSome (by decide +kernel)⟩

theorem part_transitions : AllTransitions (lower partAst) partL.states partL.action partL.goto :=
  transB_sound (by decide +kernel)

theorem part_numbers : Numbers (lower partAst) [2, 3, 4] (lits ["b", "c", "d"]) := by unfold Numbers; decide +kernel

theorem part_reject : Lalr.parseIdx (lower partAst) partL.action partL.goto 20 ([2, 3, 4] ++ [0]) = .error .invalidToken :=
  error_of (by decide +kernel)

theorem whole_accept : Lalr.parseIdx (lower partAst) wholeL.action wholeL.goto 20 ([2, 3, 4] ++ [0]) = .ok [4, 6, 2] :=
  ok_of (by decide +kernel)

/-- C62 is false of a release build: with a hash that confuses two cores, one a part of the other, the
parser is built without complaint, lacks no transition, and refuses a sentence that the parser built
with another hash accepts. -/
theorem C62_false : ∃ (ps : List Ast.Prod) (start : Ast.Prod) (g : Grammar) (hash : List Item → Option (List Item))
    (l l' : Lalr), Generated hash (fun _ => none) (fun _ l => l) ps start g l ∧
    AllTransitions g l.states l.action l.goto ∧ Generated id (fun _ => none) (fun _ l => l) ps start g l' ∧
    ∃ w ws out, Numbers g w ws ∧ Sentence (AstRule ps) start.name ws ∧
      Lalr.parseIdx g l'.action l'.goto 20 (w ++ [0]) = .ok out ∧
      ∀ fuel out, Lalr.parseIdx g l.action l.goto fuel (w ++ [0]) ≠ .ok out := by
  refine ⟨partAst, startOf partAst, lower partAst, partHash, partL, wholeL, part_generated, part_transitions,
    whole_generated, [2, 3, 4], lits ["b", "c", "d"], [4, 6, 2], part_numbers, part_sentence, whole_accept, ?_⟩
  have h := part_reject
  generalize partL = r at h ⊢
  intro fuel out ho
  have h1 := Lalr.parseIdx_mono fuel h (by simp)
  have h2 := Lalr.parseIdx_mono 20 ho (by simp)
  rw [Nat.add_comm] at h2
  exact absurd (h1.symm.trans h2) (by simp)

-- C62: the debug build stops at the assertion; it builds the parser with the other hash; a hash that
-- confuses all cores stops both builds.
example : Lalr.newDebug partHash (fun _ => none) (fun _ l => l) (lower partAst) = .error .assertFailed ∧
    Lalr.newDebug id (fun _ => none) (fun _ l => l) (lower partAst) = .ok wholeL ∧
    Lalr.new (fun _ => ()) (fun _ => none) (fun _ l => l) (lower partAst) = .error .coreMismatch :=
  ⟨error_of (by decide +kernel), (C62_debug part_expressible part_fromAst).mpr ⟨whole_generated.new, noCollisions_id _ _⟩,
    error_of (by decide +kernel)⟩

-- C27, C33: with the colliding hash, too, some text is accepted.
example : Generated partHash (fun _ => none) (fun _ l => l) partAst (startOf partAst) (lower partAst) partL ∧
    ¬ NoCollisions partHash (lower partAst) (Lalr.depthOf (lower partAst)) ∧
    partL.parse 20 "bce".toList = .ok [4, 3, 5, 2] := by
  refine ⟨part_generated, fun h => ?_, ok_of (by decide +kernel)⟩
  have h1 := (C62_debug part_expressible part_fromAst).mpr ⟨part_new, h⟩
  have h2 : Lalr.newDebug partHash (fun _ => none) (fun _ l => l) (lower partAst) = .error .assertFailed :=
    error_of (by decide +kernel)
  rw [h1] at h2
  cases h2

/-- No core is a proper part of another. -/
def apartB (sets : List ItemSet) : Bool :=
  sets.all fun s => sets.all fun t =>
    !((ItemSet.core s).all fun it => decide (it ∈ ItemSet.core t)) || decide (ItemSet.core s = ItemSet.core t)

theorem lisp_apart : ∀ lr, ItemSet.items (lower lispAst) (Lalr.depthOf (lower lispAst)) = .ok lr →
    ∀ s ∈ lr, ∀ t ∈ lr, (∀ it ∈ coreOf s, it ∈ coreOf t) → coreOf s = coreOf t := by
  have h : ((ItemSet.items (lower lispAst) (Lalr.depthOf (lower lispAst))).toOption.map apartB) = some true := by
    decide +kernel
  intro lr hlr s hs t ht hst
  rw [hlr] at h
  simp only [Except.toOption, Option.map_some, Option.some.injEq] at h
  have := List.all_eq_true.mp (List.all_eq_true.mp h s hs) t ht
  simp only [Bool.or_eq_true, Bool.not_eq_true', decide_eq_true_eq] at this
  rcases this with h1 | h1
  · have h2 : ((ItemSet.core s).all fun it => decide (it ∈ ItemSet.core t)) = true :=
      List.all_eq_true.mpr fun it hit => decide_eq_true (hst it hit)
    rw [h2] at h1; cases h1
  · exact h1

/-- C62 for the project's own grammar: no core of it is a part of another, so the program either
panics or builds the parser of C59, whatever the hash. -/
theorem C62_lisp {H : Type} [DecidableEq H] {hash : List Item → H} {ord : Nfa.Order} (ho : Reorders ord) {l : Lalr}
    (h : Lalr.new hash lispRx ord (lower lispAst) = .ok l) : l = lispL := by
  have := C62_release_partial lisp_generated.expr lisp_generated.ast ho lisp_apart h
  exact Except.ok.inj (this.symm.trans lisp_new)

end Verif.Props
