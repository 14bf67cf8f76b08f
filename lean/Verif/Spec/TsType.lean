import Verif.Model.TsProg
import Verif.Spec.Eval

/-! # Specification: the type that an expression of a file denotes -/

namespace Verif.Spec
open Verif MiniTs

/-- The expression `e`, written in the file `m`, is the type `t`: for some bound on
nested instantiations the evaluation ends with it. -/
def TypeIs (U : User) (G : Gen) (m : Mod) (e : Exp) (t : Ty) : Prop := ∃ n, ev U (run U (prog G) n m) [] e = some t

mutual
/-- An expression as it is written: without the model's notation for mapping code. -/
def codeFree : Exp → Bool
  | .lit _ => true
  | .ref _ es => codeFrees es
  | .idx t k => codeFree t && codeFree k
  | .keyof t => codeFree t
  | .arr t => codeFree t
  | .tup es => codeFrees es
  | .obj es => codeFrees es
  | .union es => codeFrees es
  | .tmpl es => codeFrees es
  | .infer _ => true
  | .inferExt _ c => codeFree c
  | .cond c e t f => codeFree c && codeFree e && codeFree t && codeFree f
  | .code _ _ => false
def codeFrees : Exps → Bool
  | .nil => true
  | .cons _ e es => codeFree e && codeFrees es
end

/-- An alias applied to types. -/
def applied (x : Str) (args : List Ty) : Exp := .ref x (args.foldr (fun t es => .cons .elem (.lit t) es) .nil)

/-- `Parse<L.Lex<"input">>`, as in ts/parse.ts:182-183. -/
def parseOfLex (input : Str) : Exp :=
  .ref "Parse".toList (.cons .elem (.ref "L.Lex".toList (.cons .elem (.lit (.str input)) .nil)) .nil)

/-- `{ kind: k, value: v }` or `{ kind: k }`. -/
def kindValue (k : Str) : Option Ty → Ty
  | none => .obj [(.str "kind".toList, false, .str k)]
  | some v => .obj [(.str "kind".toList, false, .str k), (.str "value".toList, false, v)]

end Verif.Spec

/-- An interpretation of mapping code whose values are types. -/
def Verif.MiniTs.semOf (U : Verif.MiniTs.User) : Verif.Ts.Sem Verif.MiniTs.Ty where
  text := .str
  code := U.code
  has k v := Verif.MiniTs.accepts U (.named k) v
  sub v u := Verif.MiniTs.accepts U u v
  spread _ := none

namespace Verif.Spec
open Verif

/-- Names of a grammar that keep their meaning in the generated file: nonterminals are not
called like something else in the module `actions` or like a variable of an action, and
parameters are not called like another parameter after `__`
(src/codegen/parse_gen.rs:298-344, 391-463). -/
structure TsNames (ps : List Ast.Prod) : Prop where
  dot : ∀ p ∈ ps, '.' ∉ p.name
  emit : ∀ p ∈ ps, p.name ≠ "EmitProduction".toList
  action : ∀ p ∈ ps, ∀ i, p.name ≠ "Action".toList ++ LexGen.digits i
  vars : ∀ p ∈ ps, p.name ∉ ["newStack".toList, "poppedValues".toList, "symbolStack".toList]
  under : ∀ p ∈ ps, ∀ m, p.name ≠ "__".toList ++ m
  numbered : ∀ p ∈ ps, ∀ i, p.name ≠ "var".toList ++ LexGen.digits i
  params : ∀ p ∈ ps, ∀ b ∈ p.bodies, ∀ n ∈ names b.inputs, '.' ∉ n ∧ ∀ m ∈ names b.inputs, n ≠ "__".toList ++ m
  /-- the type of a parameter is declared -/
  declared : ∀ p ∈ ps, ∀ b ∈ p.bodies, ∀ n k, Ast.InSym.named n (.nonTerm k) ∈ b.inputs → ∃ q ∈ ps, q.name = k

end Verif.Spec
