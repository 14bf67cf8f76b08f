import Verif.Model.MiniTs

/-! # Specification: the language of basic_lisp.tlalr

Lists of numbers, the word `add` and lists, how they are written and what type they are worth;
independent of grammars and lexers. -/

namespace Verif.Spec.Lisp
open Verif MiniTs

mutual
/-- `add`, a number or a list. -/
inductive Expr where
  | add
  /-- the number `n + 1` -/
  | int (n : Nat)
  | list (es : Exprs)
/-- One or more of them. -/
inductive Exprs where
  | one (e : Expr)
  | cons (e : Expr) (es : Exprs)
end

/-- The words of the language. -/
inductive Word where
  | lpar
  | rpar
  | add
  /-- the number `n + 1` -/
  | int (n : Nat)
deriving DecidableEq, Repr

mutual
def Expr.words : Expr → List Word
  | .add => [.add]
  | .int n => [.int n]
  | .list es => .lpar :: es.words ++ [.rpar]
def Exprs.words : Exprs → List Word
  | .one e => e.words
  | .cons e es => e.words ++ es.words
end

/-- A decimal digit. -/
def Digit (c : Char) : Prop := '0'.toNat ≤ c.toNat ∧ c.toNat ≤ '9'.toNat

/-- How a word is written. -/
def Word.text : Word → Str
  | .lpar => ['(']
  | .rpar => [')']
  | .add => ['a', 'd', 'd']
  | .int n => Nat.toDigits 10 (n + 1)

/-- The words one after the other, with any number of blanks before, after and between them;
no digit follows a number. -/
inductive Spaced : List Word → Str → Prop
  | nil : Spaced [] []
  | blank {c ws t} : c = ' ' ∨ c = '\n' → Spaced ws t → Spaced ws (c :: t)
  | word {w ws t} : (∀ n, w = .int n → ∀ c, t.head? = some c → ¬ Digit c) → Spaced ws t → Spaced (w :: ws) (w.text ++ t)

/-- `{ k: v, ... }` -/
def record (ms : List (String × Ty)) : Ty := .obj (ms.map fun m => (.str m.1.toList, false, m.2))

mutual
/-- What an expression is worth: the types of basic_lisp.tlalr:10-14. -/
def Expr.ty : Expr → Ty
  | .add => record [("kind", .str "symbol".toList), ("value", .str "add".toList)]
  | .int n => record [("kind", .str "int".toList), ("value", .str (Nat.toDigits 10 (n + 1)))]
  | .list es => record [("kind", .str "sexpr".toList), ("sexpr", record [("kind", .str "SExpr".toList), ("exprs", .tup es.tys)])]
def Exprs.tys : Exprs → List Ty
  | .one e => [e.ty]
  | .cons e es => e.ty :: es.tys
end

/-- What a list is worth: the type of basic_lisp.tlalr:1-3. -/
def listTy (es : Exprs) : Ty := record [("kind", .str "SExpr".toList), ("exprs", .tup es.tys)]

/-- The words of a list. -/
def listWords (es : Exprs) : List Word := .lpar :: es.words ++ [.rpar]

mutual
/-- Numbers and `add`s. -/
def Expr.atoms : Expr → Nat
  | .add => 1
  | .int _ => 1
  | .list es => es.atoms
def Exprs.atoms : Exprs → Nat
  | .one e => e.atoms
  | .cons e es => e.atoms + es.atoms
end

mutual
/-- Lists in it. -/
def Expr.lists : Expr → Nat
  | .add => 0
  | .int _ => 0
  | .list es => es.lists + 1
def Exprs.lists : Exprs → Nat
  | .one e => e.lists
  | .cons e es => e.lists + es.lists
end

mutual
/-- The rules of basic_lisp.tlalr, numbered from 1 in the order of the file, that derive the
expression: those of the parts first. -/
def Expr.rules : Expr → List Nat
  | .add => [5]
  | .int _ => [6]
  | .list es => es.rules ++ [1, 4]
def Exprs.rules : Exprs → List Nat
  | .one e => e.rules ++ [3]
  | .cons e es => e.rules ++ es.rules ++ [2]
end

/-- The rules for a list. -/
def listRules (es : Exprs) : List Nat := es.rules ++ [1]

/-- No word and no blank begins the text. -/
def Stuck (t : Str) : Prop := (∀ c, t.head? = some c → c ≠ ' ' ∧ c ≠ '\n') ∧ ∀ (w : Word) r, t ≠ w.text ++ r

end Verif.Spec.Lisp
