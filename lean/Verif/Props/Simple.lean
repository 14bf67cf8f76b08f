import Verif.Proofs.SimpleOk
import Verif.Props.Rename
import Verif.Props.Uniform

/-! # Property: simple grammars always get a parser (C101)

Simple: every body begins with a terminal, and no two bodies of one nonterminal begin with the same. -/

namespace Verif.Props
open Verif Verif.Spec

section
variable {H : Type} [DecidableEq H] {hash : List Item → H} {rx : Str → Option Hir} {ord : Nfa.Order} {ps : List Ast.Prod}
  {start : Ast.Prod} {g : Grammar} {depth : Nat} {action : Table Nat Action} {got : Table Str Nat} {states : List ItemSet}

theorem simple_rule (hs : Simple ps) {A B : Str} {r : List Sym} : ¬ AstRule ps A (.nonTerm B :: r) := by
  rw [astRule_iff]
  exact fun h => hs.1 _ _ h B rfl

theorem simple_buildable {S : Str} (hs : Simple ps) :
    Buildable (AstRule ps) S ↔ ∀ A, Uses (AstRule ps) S A → ∃ rhs, AstRule ps A rhs := by
  refine ⟨fun h => h.defined, fun h => ⟨h, ?_⟩⟩
  rintro A B - - ⟨C, ⟨rhs, hR⟩, -⟩
  exact simple_rule hs hR

/-- **C101, tables.**  For a simple grammar whose nonterminals have rules, tables are built: it has no conflict. -/
theorem C101_tables (he : Expressible ps) (hf : ps.find? (fun p => p.isStart) = some start) (hg : Grammar.fromAst ps = .ok g)
    (hc : NoCollisions hash g (Lalr.depthOf g)) (hs : Simple ps)
    (hd : ∀ A, Uses (AstRule ps) start.name A → ∃ rhs, AstRule ps A rhs) : ∃ r, Lalr.makeTables hash g (Lalr.depthOf g) = .ok r :=
  (C24_clash he hf hg ((simple_buildable hs).2 hd) hc).2.2 (lone_clash (Grammar.gok_of_fromAst he hg) (hs.grammar hf hg))

/-- **C101.**  A parser is built for a simple grammar just when its regexes are supported and each nonterminal that can be reached has a rule. -/
theorem C101_builds (he : Expressible ps) (hf : ps.find? (fun p => p.isStart) = some start) (hg : Grammar.fromAst ps = .ok g)
    (ho : Reorders ord) (hc : NoCollisions hash g (Lalr.depthOf g)) (hs : Simple ps) :
    (∃ l, Lalr.new hash rx ord g = .ok l) ↔ RegexesOk rx ps ∧ ∀ A, Uses (AstRule ps) start.name A → ∃ rhs, AstRule ps A rhs := by
  rw [(new_iff he hf hg ho hc).1, simple_buildable hs]
  exact and_congr_right fun _ => and_iff_left (lone_clash (Grammar.gok_of_fromAst he hg) (hs.grammar hf hg))

/-- **C101, termination.**  The parser of a simple grammar stops on every list of tokens with an end marker, whatever the hash. -/
theorem C101_terminates (hB : Built hash ps start g depth action got states) (hs : Simple ps) {toks : List Nat} {n : Nat}
    (hn : toks[n]? = some 0) {fuel : Nat} (hf : (2 * n + 1) * (g.prods.length + 1) ≤ fuel) :
    Lalr.parseIdx g action got fuel toks ≠ .error .outOfFuel := by
  refine C30_terminates_partial hB (fun A hA => ?_) hn hf
  cases hA with
  | one h => exact simple_rule hs h
  | cons h _ => exact simple_rule hs h

/-- **C101, decision.**  For a simple and uniform grammar whose nonterminals have rules, the tables are built, and the parser accepts just the
sentences, each with its one tree, and refuses the rest as an invalid token. -/
theorem C101_decides (he : Expressible ps) (hf : ps.find? (fun p => p.isStart) = some start) (hg : Grammar.fromAst ps = .ok g)
    (hc : NoCollisions hash g (Lalr.depthOf g)) (hs : Simple ps) (hu : Uniform (AstRule ps) start.name)
    (hd : ∀ A, Uses (AstRule ps) start.name A → ∃ rhs, AstRule ps A rhs) :
    ∃ action got states, Lalr.makeTables hash g (Lalr.depthOf g) = .ok (action, got, states) ∧
      ∀ w ws rest fuel, 0 ∉ w → Numbers g w ws → (2 * w.length + 1) * (g.prods.length + 1) ≤ fuel →
        (Sentence (AstRule ps) start.name ws → ∃ f, IsTree g.prods start.name f ws ∧ (∀ f', IsTree g.prods start.name f' ws → f' = f) ∧
          Lalr.parseIdx g action got fuel (w ++ 0 :: rest) = .ok f.post) ∧
        (¬ Sentence (AstRule ps) start.name ws → Lalr.parseIdx g action got fuel (w ++ 0 :: rest) = .error .invalidToken) := by
  obtain ⟨⟨action, got, states⟩, h⟩ := C101_tables he hf hg hc hs hd
  exact ⟨action, got, states, h, fun w ws rest fuel h0 hn hfu => C100_decides ⟨he, hf, hg, h⟩ hc hu h0 hn hfu⟩

end

/-! ## Samples -/

theorem simple_of {ps : List Ast.Prod} (h : ((rulesOf ps).all fun x => !(x.2.head?.any isNon)) = true)
    (h2 : (rulesOf ps).Pairwise fun x y => x.1 = y.1 → x.2.head? ≠ y.2.head?) : Simple ps := by
  refine ⟨fun A r hr B hB => ?_, h2⟩
  have := List.all_eq_true.1 h _ hr
  simp [hB, isNon] at this

theorem word_simple : Simple wordAst := simple_of (by decide +kernel) (by decide +kernel)

theorem three_simple : Simple threeAst := simple_of (by decide +kernel) (by decide +kernel)

-- C101_tables, C101_builds, C101_terminates, C101_decides: the hypotheses.
example : Expressible wordAst ∧ wordAst.find? (fun p => p.isStart) = some (startOf wordAst) ∧ Grammar.fromAst wordAst = .ok (lower wordAst) ∧
    NoCollisions id (lower wordAst) (Lalr.depthOf (lower wordAst)) ∧ Simple wordAst ∧ Uniform (AstRule wordAst) (startOf wordAst).name ∧
    (∀ A, Uses (AstRule wordAst) (startOf wordAst).name A → ∃ rhs, AstRule wordAst A rhs) ∧ wordL.parse 9 " x ab".toList = .ok [3, 1] :=
  ⟨word_generated.expr, word_generated.first, word_generated.ast, noCollisions_id _ _, word_simple, C100_right_linear word_rightLinear,
    (buildable_of_first word_generated.expr word_generated.first word_generated.ast (firstB_sound (by decide +kernel))).defined,
    ok_of (by decide +kernel)⟩

/-- Simple is not enough for a complete parser: `threeAst` is simple, and its parser refuses a sentence. -/
theorem C101_incomplete : ∃ ps start g depth action got states, Built (H := List Item) id ps start g depth action got states ∧ Simple ps ∧
    ∃ w ws, Numbers g w ws ∧ Sentence (AstRule ps) start.name ws ∧ ∀ fuel out, Lalr.parseIdx g action got fuel (w ++ [0]) ≠ .ok out := by
  refine ⟨_, _, _, _, _, _, _, three_built, three_simple, [6, 1, 2, 3], lits ["x", "b", "c", "p"], by unfold Numbers; decide +kernel, ?_, ?_⟩
  · exact sentence_of three_expressible three_fromAst (startOf_eq (by decide +kernel)) (f := threeTree) (tree_of (by decide +kernel))
  · have h := three_reject
    generalize tablesOf (lower threeAst) = r at h ⊢
    intro fuel out ho
    have h1 := Lalr.parseIdx_mono fuel h (by simp)
    have h2 := Lalr.parseIdx_mono 9 ho (by simp)
    rw [Nat.add_comm] at h2
    exact absurd (h1.symm.trans h2) (by simp)

end Verif.Props
