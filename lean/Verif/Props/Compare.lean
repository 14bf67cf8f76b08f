import Verif.Proofs.Compare
import Verif.Props.FrontEnd

/-! # C69: the comparisons of symbols written by hand -/

namespace Verif.Props
open Verif Spec FrontEnd

/-- C69: `Symbol::compare` is a total order on the symbols other than epsilon, and epsilon is below each of them.
Missing: epsilon itself (`C69_symbol_false`). -/
theorem C69_symbol_partial : TotalOn (· ≠ Sym.epsilon) Eq Sym.compare ∧
    ∀ s ≠ Sym.epsilon, Sym.compare .epsilon s = .lt ∧ Sym.compare s .epsilon = .gt :=
  ⟨symCompare_total, by rintro (s | s | s | _ | _) h <;> first | exact absurd rfl h | exact ⟨rfl, rfl⟩⟩

example : Sym.compare (.strLit "b".toList) (.nonTerm "A".toList) = .lt ∧
    Sym.compare (.nonTerm "A".toList) (.regex "[0-9]+".toList) = .lt ∧
    Sym.compare (.regex "[0-9]+".toList) (.regex "[0-9]".toList) = .gt := by decide

/-- C69 is false of `Symbol::compare`: epsilon is below itself. -/
theorem C69_symbol_false : Sym.compare .epsilon .epsilon = .lt ∧ ¬ TotalOn (fun _ => True) Eq Sym.compare :=
  ⟨rfl, fun h => by cases h.swap .epsilon .epsilon trivial trivial⟩

/-- C69: `Ord for InputSymbol` is a total order on the symbols without an epsilon and without a named symbol that has
no name, if all nonterminals are taken to be the same.  Missing: telling nonterminals apart, and the symbols excluded
(`C69_input_false`). -/
theorem C69_input_partial : TotalOn Sortable SameKind Ast.InSym.compare := Ast.InSym.compare_total

/-- C69: the symbols of a grammar file are among those of `C69_input_partial`. -/
theorem C69_parsed {text : Str} {ps : List Ast.Prod} (h : parseGrammar text = .ok ps) :
    ∀ p ∈ ps, ∀ b ∈ p.bodies, ∀ s ∈ b.inputs, Sortable s := by
  intro p hp b hb s hs
  have plain : ∀ {s}, PlainSym s → Sortable s := fun h => by
    cases h with
    | lit _ => exact .strLit
    | regex _ => exact .regex
    | nonTerm _ => exact .nonTerm
  cases (((C50_writable ps).mp ⟨text, h⟩).inputs p hp b hb).2 s hs with
  | plain h => exact plain h
  | named _ h => exact .named (plain h)

example : ∃ p ∈ lispAst, ∃ b ∈ p.bodies, ∃ s ∈ b.inputs, ∃ t ∈ b.inputs, Sortable s ∧ Sortable t ∧
    Ast.InSym.compare s t = .lt ∧ Ast.InSym.compare t s = .gt := by
  have hp : lispAst[0] ∈ lispAst := List.getElem_mem _
  have hb : (lispAst[0]).bodies[0] ∈ (lispAst[0]).bodies := List.getElem_mem _
  refine ⟨_, hp, _, hb, .strLit "(".toList, by decide, .named (some "exprs".toList) (.nonTerm "Exprs".toList),
    by decide, .strLit, .named .nonTerm, by decide, by decide⟩

/-- C69 is false of `Ord for InputSymbol`: different nonterminals are equal for it, although `Eq` tells them apart; and
epsilon and a named symbol without a name are below themselves. -/
theorem C69_input_false : (∃ s t, Sortable s ∧ Sortable t ∧ s ≠ t ∧ Ast.InSym.compare s t = .eq) ∧
    Ast.InSym.compare .epsilon .epsilon = .lt ∧
    ∀ ty, Sortable ty → Ast.InSym.compare (.named none ty) (.named none ty) = .lt := by
  refine ⟨⟨.nonTerm ['A'], .nonTerm ['B'], .nonTerm, .nonTerm, by decide, rfl⟩, rfl, fun ty h => ?_⟩
  simp only [Ast.InSym.compare, Ast.InSym.compare_self h]

/-- C69, exactly where it fails: two symbols that are not tied are ordered the opposite way when swapped, and are equal
just when they are the same up to the names of nonterminals; two that are tied are each below the other. -/
theorem C69_input_tied (s t : Ast.InSym) :
    (¬ Tied s t → Ast.InSym.compare t s = (Ast.InSym.compare s t).swap ∧ (Ast.InSym.compare s t = .eq ↔ SameKind s t)) ∧
    (Tied s t → Ast.InSym.compare s t = .lt ∧ Ast.InSym.compare t s = .lt) :=
  ⟨Ast.InSym.compare_exact s t, Ast.InSym.tied_lt⟩

/-- C69: of two symbols of the same kind, the one without a name is below the one with a name. -/
theorem C69_input_nameless {s t : Ast.InSym} (h : Sortable s) (hst : SameKind s t) (n : Str) :
    Ast.InSym.compare (.named none s) (.named (some n) t) = .lt ∧
    Ast.InSym.compare (.named (some n) t) (.named none s) = .gt := by
  have e : Ast.InSym.compare s t = .eq := (Ast.InSym.compare_total.eq _ _ h (Ast.InSym.sortable_same hst h)).mpr hst
  have e' : Ast.InSym.compare t s = .eq := by
    rw [Ast.InSym.compare_total.swap _ _ h (Ast.InSym.sortable_same hst h), e]; rfl
  simp only [Ast.InSym.compare, e, e', and_self]

example : Tied (.named (some ['a']) (.named none (.nonTerm ['A']))) (.named none (.named none (.nonTerm ['B']))) ∧
    ¬ Tied (.named (some ['a']) (.strLit ['x'])) (.named none (.strLit ['x'])) ∧
    Ast.InSym.compare (.named (some ['a']) (.strLit ['x'])) (.named none (.strLit ['x'])) = .gt :=
  ⟨.named (.nameless .nonTerm), (fun h => by cases h with | named h => cases h), by decide⟩

/-- C69 is false of the symbols of grammar files: a grammar in which a body has two symbols that differ but compare as
equal. -/
theorem C69_parsed_false : ∃ text ps, parseGrammar text = .ok ps ∧ ∃ p ∈ ps, ∃ b ∈ p.bodies,
    ∃ s ∈ b.inputs, ∃ t ∈ b.inputs, s ≠ t ∧ Ast.InSym.compare s t = .eq :=
  ⟨"export start S: (x) = [\nA B => (y)]".toList, _, ok_of (a := [⟨['S'], [⟨[.nonTerm ['A'], .nonTerm ['B']], ['y']⟩], true, ['x']⟩])
      (by decide +kernel), _, List.mem_singleton_self _, _, List.mem_singleton_self _,
    .nonTerm ['A'], by decide, .nonTerm ['B'], by decide, by decide, rfl⟩

end Verif.Props
