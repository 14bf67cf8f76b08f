import Verif.Model.Grammar

/-! # What Rust asks of `Ord` -/

namespace Verif.Spec

/-- `cmp` is a total order on the elements with `P`, up to `same`. -/
structure TotalOn {α : Type} (P : α → Prop) (same : α → α → Prop) (cmp : α → α → Ordering) : Prop where
  eq : ∀ a b, P a → P b → (cmp a b = .eq ↔ same a b)
  swap : ∀ a b, P a → P b → cmp b a = (cmp a b).swap
  trans : ∀ a b c, P a → P b → P c → cmp a b ≠ .gt → cmp b c ≠ .gt → cmp a c ≠ .gt

/-- Neither an epsilon in it nor a named symbol without a name. -/
inductive Sortable : Ast.InSym → Prop
  | strLit {s} : Sortable (.strLit s)
  | nonTerm {s} : Sortable (.nonTerm s)
  | regex {s} : Sortable (.regex s)
  | eof : Sortable .eof
  | named {n ty} : Sortable ty → Sortable (.named (some n) ty)

/-- Equal, except that a nonterminal is as good as any other. -/
inductive SameKind : Ast.InSym → Ast.InSym → Prop
  | refl {s} : SameKind s s
  | nonTerm {m n} : SameKind (.nonTerm m) (.nonTerm n)
  | named {n s t} : SameKind s t → SameKind (.named n s) (.named n t)

/-- Both are epsilon or both are named symbols without a name, at the same depth, and alike below that. -/
inductive Tied : Ast.InSym → Ast.InSym → Prop
  | epsilon : Tied .epsilon .epsilon
  | nameless {s t} : SameKind s t → Tied (.named none s) (.named none t)
  | named {m n s t} : Tied s t → Tied (.named m s) (.named n t)

end Verif.Spec
