import Verif.Proofs.UniformOk
import Verif.Proofs.RenameText
import Verif.Props.EndToEnd

/-! # Property: grammars whose parser is complete whatever else they are (C100)

C26, C28, C29, C52 fail for grammars with dropped transitions.  Here is a condition on the rules alone under which they hold. -/

namespace Verif.Props
open Verif Verif.Spec

section
variable {H : Type} [DecidableEq H] {hash : List Item → H} {ps : List Ast.Prod} {start : Ast.Prod} {g : Grammar}
  {depth : Nat} {action : Table Nat Action} {got : Table Str Nat} {states : List ItemSet}

omit [DecidableEq H] in
/-- **C100, item sets.**  In a uniform grammar no two canonical sets share a core: LR(1) and LALR(1) are the same. -/
theorem C100_sets (he : Expressible ps) (hs : ps.find? (fun p => p.isStart) = some start) (hg : Grammar.fromAst ps = .ok g)
    (hu : Uniform (AstRule ps) start.name) {I J : Item → Nat → Prop} (hI : Reach g I) (hJ : Reach g J) (hc : SameCore I J) : I = J := by
  have hok := Grammar.gok_of_fromAst he hg
  have h1 := Full.of_reach hok hg hs hu hI
  have h2 := Full.of_reach hok hg hs hu hJ
  funext it la
  exact propext ⟨fun h => h1.le h2 hc h, fun h => h2.le h1 (fun it => (hc it).symm) h⟩

omit [DecidableEq H] in
/-- **C100, lookaheads.**  In a uniform grammar the lookaheads of an item are what can follow its left side. -/
theorem C100_lookaheads (he : Expressible ps) (hs : ps.find? (fun p => p.isStart) = some start) (hg : Grammar.fromAst ps = .ok g)
    (hu : Uniform (AstRule ps) start.name) {I : Item → Nat → Prop} (hI : Reach g I) {it : Item} {la : Nat} (h : I it la) (h0 : it.1 ≠ 0) :
    ∃ p, g.prods[it.1]? = some p ∧ ∀ k t, g.tokens[k]? = some t → (I it k ↔ Followed (AstRule ps) start.name p.name t) := by
  have hok := Grammar.gok_of_fromAst he hg
  have hF := Full.of_reach hok hg hs hu hI
  obtain ⟨p, t, h1, h2, h3, h4⟩ := hF _ _ h
  have hne : p.name ≠ g.augName := fun hn => h0 (hok.aug _ _ h1 hn)
  refine ⟨p, h1, fun k t' hk => ⟨fun h' => ?_, fun h' => h4 t' k (.inr ⟨hne, h'⟩) hk⟩⟩
  obtain ⟨p', t'', k1, k2, k3, -⟩ := hF _ _ h'
  rw [h1] at k1; cases k1
  rw [hk] at k2; cases k2
  rcases k3 with ⟨k3, _⟩ | ⟨_, k3⟩
  · exact absurd k3 hne
  · exact k3

/-- **C100, transitions.**  The tables of a uniform grammar have every transition. -/
theorem C100_transitions (hB : Built hash ps start g depth action got states) (hc : NoCollisions hash g depth)
    (hu : Uniform (AstRule ps) start.name) : AllTransitions g states action got :=
  C26_transitions_partial hB.expr hB.ast hc hB.tables fun _ _ _ hI hJ _ h _ =>
    .inl (C100_sets hB.expr hB.first hB.ast hu hI hJ h)

/-- **C100, construction.**  Tables are built for a uniform grammar just when no canonical set has a conflict or two items with one terminal after
the dot. -/
theorem C100_builds (he : Expressible ps) (hs : ps.find? (fun p => p.isStart) = some start) (hg : Grammar.fromAst ps = .ok g)
    (hf : Buildable (AstRule ps) start.name) (hc : NoCollisions hash g (Lalr.depthOf g)) (hu : Uniform (AstRule ps) start.name) :
    (∃ r, Lalr.makeTables hash g (Lalr.depthOf g) = .ok r) ↔ ∀ I, Reach g I → ¬ Conflict g I ∧ ¬ SharedTerminal g I := by
  have hl : ∀ I, Reach g I → LalrOf g I = I := by
    intro I hI
    funext it la
    refine propext ⟨fun ⟨J, h1, h2, h3⟩ => ?_, fun h => ⟨I, hI, fun _ => Iff.rfl, h⟩⟩
    rw [C100_sets he hs hg hu hI h1 h2]; exact h3
  rw [C25_exact_partial he hs hg hf hc fun _ _ _ hI hJ _ h _ => .inl (C100_sets he hs hg hu hI hJ h)]
  constructor
  · rintro ⟨h1, h2⟩ I hI
    have a := h1 I hI; have b := h2 I hI
    rw [hl I hI] at a b
    exact ⟨a, b⟩
  · intro h
    refine ⟨fun I hI => ?_, fun I hI => ?_⟩ <;> rw [hl I hI]
    · exact (h I hI).1
    · exact (h I hI).2

/-- **C100.**  The parser of a uniform grammar stops on every token string, accepts it just when it is a sentence, and answers with its
one tree. -/
theorem C100_decides (hB : Built hash ps start g depth action got states) (hc : NoCollisions hash g depth)
    (hu : Uniform (AstRule ps) start.name) {w : List Nat} (h0 : 0 ∉ w) {ws : List Sym} (hn : Numbers g w ws)
    {rest : List Nat} {fuel : Nat} (hf : (2 * w.length + 1) * (g.prods.length + 1) ≤ fuel) :
    (Sentence (AstRule ps) start.name ws → ∃ f, IsTree g.prods start.name f ws ∧ (∀ f', IsTree g.prods start.name f' ws → f' = f) ∧
      Lalr.parseIdx g action got fuel (w ++ 0 :: rest) = .ok f.post) ∧
    (¬ Sentence (AstRule ps) start.name ws →
      Lalr.parseIdx g action got fuel (w ++ 0 :: rest) = .error .invalidToken) := by
  have hA := C100_transitions hB hc hu
  obtain ⟨h1, h2⟩ := C52_decides_partial hB hc hA h0 hn (rest := rest) hf
  refine ⟨fun hS => ?_, h2⟩
  obtain ⟨f, k1, k2⟩ := h1 hS
  exact ⟨f, k1, fun f' hf' => C29_unambiguous_partial hB hc hA hf' k1, k2⟩

/-- **C100, right linear.**  A grammar whose nonterminals stand at the end of bodies only is uniform. -/
theorem C100_right_linear {R : Str → List Sym → Prop} {S : Str} (h : RightLinear R) : Uniform R S := h.uniform

/-- **C100, once.**  A grammar in which no nonterminal stands at two places, and the start at none, is uniform. -/
theorem C100_once {R : Str → List Sym → Prop} {S : Str} (h : Once R S) : Uniform R S := h.uniform

end

/-! ## Samples -/

/-- Is the symbol a nonterminal? -/
def isNon : Sym → Bool
  | .nonTerm _ => true
  | _ => false

theorem rightLinear_of {ps : List Ast.Prod} (h : ((rulesOf ps).all fun x => x.2.dropLast.all fun s => !isNon s) = true) :
    RightLinear (AstRule ps) := by
  intro A α B β hR
  rw [astRule_iff] at hR
  by_contra hβ
  have h1 := List.all_eq_true.1 (List.all_eq_true.1 h _ hR) (.nonTerm B)
    (by rw [List.dropLast_append_of_ne_nil (by simp), List.dropLast_cons_of_ne_nil hβ]; simp)
  simp [isNon] at h1

/-- The nonterminals of a body with what is behind them. -/
def placesIn : List Sym → List (Str × List Sym)
  | [] => []
  | .nonTerm B :: r => (B, r) :: placesIn r
  | .epsilon :: r | .eof :: r | .strLit _ :: r | .regex _ :: r => placesIn r

theorem mem_placesIn {B : Str} {β : List Sym} : ∀ α, (B, β) ∈ placesIn (α ++ .nonTerm B :: β)
  | [] => List.mem_cons_self
  | .nonTerm A :: α => List.mem_cons_of_mem _ (mem_placesIn α)
  | .epsilon :: α | .eof :: α | .strLit _ :: α | .regex _ :: α => mem_placesIn α

def placesOf (ps : List Ast.Prod) : List (Str × Str × List Sym) :=
  (rulesOf ps).flatMap fun x => (placesIn x.2).map fun y => (y.1, x.1, y.2)

theorem once_of {ps : List Ast.Prod} {S : Str} (h : ((placesOf ps).map Prod.fst).Nodup) (hS : S ∉ (placesOf ps).map Prod.fst) :
    Once (AstRule ps) S := by
  have hm : ∀ {A α B β}, AstRule ps A (α ++ .nonTerm B :: β) → (B, A, β) ∈ placesOf ps := by
    intro A α B β hR
    rw [astRule_iff] at hR
    exact List.mem_flatMap.2 ⟨_, hR, List.mem_map.2 ⟨_, mem_placesIn α, rfl⟩⟩
  refine ⟨fun A α β hR => hS (List.mem_map.2 ⟨_, hm hR, rfl⟩), fun B A α β A' α' β' h1 h2 => ?_⟩
  have := List.inj_on_of_nodup_map h (hm h1) (hm h2) rfl
  simp only [Prod.mk.injEq, true_and] at this
  exact this

theorem word_rightLinear : RightLinear (AstRule wordAst) := rightLinear_of (by decide +kernel)

/-- `S → "x" B "p" | C`, `B → "b" D "c"`, `C → "y"`, `D → "d" "d"`. -/
def onceAst : List Ast.Prod :=
  [mkProd true "S" [["x", "B", "p"], ["C"]], mkProd false "B" [["b", "D", "c"]], mkProd false "C" [["y"]], mkProd false "D" [["d", "d"]]]

theorem once_once : Once (AstRule onceAst) (startOf onceAst).name := once_of (by decide +kernel) (by decide +kernel)

theorem once_tables : Lalr.makeTables id (lower onceAst) (Lalr.depthOf (lower onceAst)) = .ok (tablesOf (lower onceAst)) :=
  ok_of_isSome (by decide +kernel)

theorem once_built : Built id onceAst (startOf onceAst) (lower onceAst) (Lalr.depthOf (lower onceAst))
    (tablesOf (lower onceAst)).1 (tablesOf (lower onceAst)).2.1 (tablesOf (lower onceAst)).2.2 :=
  built_of (expressibleB_sound (by decide +kernel)) (by decide +kernel) (ok_of_isSome (by decide +kernel)) once_tables

-- C100_sets, C100_lookaheads, C100_transitions, C100_decides, C100_right_linear, C100_once: two grammars, one of each kind.
example : Generated id wordRx (fun _ l => l) wordAst (startOf wordAst) (lower wordAst) wordL ∧ Uniform (AstRule wordAst) (startOf wordAst).name ∧
    wordL.parse 9 " x ab".toList = .ok [3, 1] :=
  ⟨word_generated, C100_right_linear word_rightLinear, ok_of (by decide +kernel)⟩

example : Uniform (AstRule onceAst) (startOf onceAst).name ∧
    Numbers (lower onceAst) [5, 1, 3, 3, 2, 4] (lits ["x", "b", "d", "d", "c", "p"]) ∧
    Lalr.parseIdx (lower onceAst) (tablesOf (lower onceAst)).1 (tablesOf (lower onceAst)).2.1 40 ([5, 1, 3, 3, 2, 4] ++ [0]) = .ok [5, 3, 1] := by
  refine ⟨C100_once once_once, by unfold Numbers; decide +kernel, ok_of (by decide +kernel)⟩

-- C100_builds: the tables of `wordAst` and what the theorem says of its item sets.
example : Buildable (AstRule wordAst) (startOf wordAst).name ∧
    ∀ I, Reach (lower wordAst) I → ¬ Conflict (lower wordAst) I ∧ ¬ SharedTerminal (lower wordAst) I := by
  have hb : Buildable (AstRule wordAst) (startOf wordAst).name :=
    buildable_of_first word_generated.expr word_generated.first word_generated.ast (firstB_sound (by decide +kernel))
  exact ⟨hb, (C100_builds (hash := id) word_generated.expr word_generated.first word_generated.ast hb (noCollisions_id _ _)
    (C100_right_linear word_rightLinear)).1 ⟨_, word_generated.built.tables⟩⟩

-- Not every grammar is uniform: `B` of `threeAst` is followed by `p` or `q`.
example : ¬ Uniform (AstRule threeAst) (startOf threeAst).name := by
  intro hu
  have hS : Sentence (AstRule threeAst) (startOf threeAst).name (lits ["x", "b", "c", "p"]) :=
    sentence_of three_expressible three_fromAst (startOf_eq (by decide +kernel)) (f := threeTree) (tree_of (by decide +kernel))
  obtain ⟨fuel, hfuel⟩ : ∃ fuel, (2 * [6, 1, 2, 3].length + 1) * ((lower threeAst).prods.length + 1) ≤ fuel := ⟨_, Nat.le_refl _⟩
  have hn : Numbers (lower threeAst) [6, 1, 2, 3] (lits ["x", "b", "c", "p"]) := by unfold Numbers; decide +kernel
  have h := (C100_decides three_built (noCollisions_id _ _) hu (w := [6, 1, 2, 3]) (by decide) hn (rest := []) hfuel).1 hS
  have h' := three_reject
  generalize tablesOf (lower threeAst) = r at h h'
  generalize lower threeAst = g at h h'
  obtain ⟨f, -, -, h⟩ := h
  have h1 := Lalr.parseIdx_mono 9 h (fun h => nomatch h)
  have h2 := Lalr.parseIdx_mono fuel h' (fun h => nomatch h)
  rw [Nat.add_comm] at h1
  exact nomatch h2.symm.trans h1

end Verif.Props
