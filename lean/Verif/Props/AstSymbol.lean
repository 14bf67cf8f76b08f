import Verif.Model.AstSymbol

/-! # C70: what is asked of a symbol before and after lowering -/

namespace Verif.Props
open Verif

/-- C70: a symbol of the grammar file and the symbol it is lowered to are both terminals or both the same
nonterminal. -/
theorem C70_kind (s : Ast.InSym) : s.asNonTerminal = s.lower.asNonTerminal ∧ s.isTerminal = s.lower.isTerminal ∧
    (s.isTerminal = true ↔ s.asNonTerminal = none) := by
  induction s with
  | named n ty ih => exact ih
  | _ => simp [Ast.InSym.asNonTerminal, Ast.InSym.isTerminal, Ast.InSym.lower, Sym.asNonTerminal, Sym.isTerminal]

example : Ast.InSym.asNonTerminal (.named (some "es".toList) (.nonTerm "Exprs".toList)) = some "Exprs".toList ∧
    Ast.InSym.isTerminal (.named (some "int".toList) (.regex "[0-9]+".toList)) = true := ⟨rfl, rfl⟩

/-- C70: the two definitions of the token of a symbol agree on the name and number. -/
theorem C70_def {rx : Str → Option Hir} {idx : Nat} {s : Sym} {d : Option (TokenDef × Hir)}
    (h : Grammar.tokenDefWithRegex rx idx s = .ok d) : s.toTokenDef idx = d.map Prod.fst := by
  cases s with
  | regex s =>
    simp only [Grammar.tokenDefWithRegex] at h
    cases hr : rx s with
    | none => rw [hr] at h; cases h
    | some x => rw [hr] at h; cases h; rfl
  | _ => cases h; rfl

/-- C70: for a symbol whose text is a regex, or that is no token, the token defined before lowering is the one defined
after.  Missing: literals (`C70_literal`). -/
theorem C70_token_partial (rx : Str → Option Hir) (idx : Nat) (s : Ast.InSym) (h : ∀ t, s.lower ≠ .strLit t) :
    s.tokenDefWithRegex rx idx = Grammar.tokenDefWithRegex rx idx s.lower := by
  induction s with
  | strLit t => exact absurd rfl (h t)
  | named n ty ih => exact ih h
  | _ => rfl

example : Ast.InSym.tokenDefWithRegex (fun _ => some (.rep .oneOrMore (.cls [(48, 57)]))) 3
      (.named (some "int".toList) (.regex "[0-9]+".toList)) =
    .ok (some (⟨"[0-9]+".toList, true, some 3⟩, .rep .oneOrMore (.cls [(48, 57)]))) := rfl

/-- C70 is false of literals: before lowering the text is taken for a regex, which need not be one and need not match
the text, and the token has no value; after lowering it is quoted, and the token has a value. -/
theorem C70_literal (rx : Str → Option Hir) (idx : Nat) (s : Ast.InSym) {t : Str} (h : s.lower = .strLit t) :
    Grammar.tokenDefWithRegex rx idx s.lower = .ok (some (⟨t, true, some idx⟩, Grammar.litHir t)) ∧
    (rx t = none → s.tokenDefWithRegex rx idx = .error .badRegex) ∧
    (∀ x, rx t = some x → s.tokenDefWithRegex rx idx = .ok (some (⟨t, false, some idx⟩, x))) := by
  refine ⟨by rw [h]; rfl, ?_, ?_⟩
  · intro hr
    induction s with
    | strLit u => cases h; simp [Ast.InSym.tokenDefWithRegex, hr]
    | named n ty ih => exact ih h
    | _ => cases h
  · intro x hr
    induction s with
    | strLit u => cases h; simp [Ast.InSym.tokenDefWithRegex, hr]
    | named n ty ih => exact ih h
    | _ => cases h

example : Ast.InSym.lower (.named (some "str".toList) (.strLit "(".toList)) = .strLit "(".toList := rfl

/-- C70 is false: for no literal do the two definitions agree. -/
theorem C70_false (rx : Str → Option Hir) (idx : Nat) (s : Ast.InSym) {t : Str} (h : s.lower = .strLit t) :
    s.tokenDefWithRegex rx idx ≠ Grammar.tokenDefWithRegex rx idx s.lower := by
  obtain ⟨h1, h2, h3⟩ := C70_literal rx idx s h
  rw [h1]
  cases hr : rx t with
  | none => rw [h2 hr]; intro h; cases h
  | some x => rw [h3 x hr]; intro h; cases h

end Verif.Props
