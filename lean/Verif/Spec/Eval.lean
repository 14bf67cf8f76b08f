import Verif.Spec.Tokens
import Verif.Model.TsParse
import Mathlib.Data.List.Forall2

/-! # Specification: the value of a parse tree -/

namespace Verif.Spec
open Verif

variable {V : Type}

/-- The names of the parameters of a body. -/
def names (inputs : List Ast.InSym) : List Str :=
  inputs.filterMap fun s => match s with
    | .named (some n) _ => some n
    | _ => none

/-- Each parameter with the value of its own child. -/
def bindings : List Ast.InSym → List V → List (Str × V)
  | .named (some n) _ :: ss, v :: vs => (n, v) :: bindings ss vs
  | _ :: ss, _ :: vs => bindings ss vs
  | _, _ => []

/-- The body of a production: bodies are numbered from 1 in the order they are
written, production 0 is the added one. -/
def bodyOf (ps : List Ast.Prod) : Nat → Option Ast.Body
  | 0 => none
  | p + 1 => (ps.flatMap (·.bodies))[p]?

/-- Bottom-up evaluation of a list of trees.  `ws` are the texts of the leaves and
`vs` the values of the roots: a leaf is worth its text, a node is worth its mapping
code with every parameter bound to the value of its child. -/
inductive Eval (S : Ts.Sem V) (ps : List Ast.Prod) : Forest → List Str → List V → Prop
  | nil : Eval S ps .nil [] []
  | leaf {t rest w ws vs} : Eval S ps rest ws vs → Eval S ps (.leaf t rest) (w :: ws) (S.text w :: vs)
  | node {p b kids rest ws1 ws2 kvs v vs} : bodyOf ps p = some b → Eval S ps kids ws1 kvs →
      S.code b.mapping (bindings b.inputs kvs) = some v → Eval S ps rest ws2 vs →
      Eval S ps (.node p kids rest) (ws1 ++ ws2) (v :: vs)

/-- `v` is a value that the symbol `s` can have: a terminal its text, a nonterminal the value of
the mapping code of one of its bodies on such values. -/
inductive Occurs (S : Ts.Sem V) (ps : List Ast.Prod) : Sym → V → Prop
  | strLit {s} : Occurs S ps (.strLit s) (S.text s)
  | regex {r w} : Occurs S ps (.regex r) (S.text w)
  | nonTerm {p b vs v} : p ∈ ps → b ∈ p.bodies → vs.length = b.inputs.length →
      (∀ (i : Nat) s u, (b.inputs.map Ast.InSym.lower)[i]? = some s → vs[i]? = some u → Occurs S ps s u) →
      S.code b.mapping (bindings b.inputs vs) = some v → Occurs S ps (.nonTerm p.name) v

/-- The user's mapping code is well typed: on the values that occur it has a value, of the type
declared for the nonterminal. -/
def WellTyped (S : Ts.Sem V) (ps : List Ast.Prod) : Prop :=
  ∀ p ∈ ps, ∀ b ∈ p.bodies, ∀ vs, List.Forall₂ (Occurs S ps) (b.inputs.map Ast.InSym.lower) vs →
    ∃ v, S.code b.mapping (bindings b.inputs vs) = some v ∧ S.has p.name v = true

/-- Parameters are written `<name: symbol>` (src/parser/grammar.lalrpop:32-38). -/
def WrittenNames (ps : List Ast.Prod) : Prop :=
  ∀ p ∈ ps, ∀ b ∈ p.bodies, ∀ n ty, Ast.InSym.named n ty ∈ b.inputs → n ≠ none ∧ ∀ m t, ty ≠ .named m t

/-- Parameters are written `<name: symbol>`, their names are distinct within a body, none of them is `newStack`. -/
structure NamesOk (ps : List Ast.Prod) : Prop where
  written : WrittenNames ps
  distinct : ∀ p ∈ ps, ∀ b ∈ p.bodies, (names b.inputs).Nodup
  noStack : ∀ p ∈ ps, ∀ b ∈ p.bodies, "newStack".toList ∉ names b.inputs

/-- No parameter has the name of a nonterminal of its body. -/
def NoHiding (ps : List Ast.Prod) : Prop :=
  ∀ p ∈ ps, ∀ b ∈ p.bodies, ∀ n ∈ names b.inputs, ∀ k, Sym.nonTerm k ∈ b.inputs.map Ast.InSym.lower → k ≠ n

/-- The token `t` of the type-level lexer stands for the terminal `s` and has the
text `w`. -/
def Stands (t : Ts.Tok) (s : Sym) (w : Str) : Prop :=
  IsTerm s ∧ t.kind = spelling s ∧ t.value = some (.val w) ∧ ∀ l, s = .strLit l → w = l

/-- A token of the type-level lexer for a terminal of the grammar or the end marker. -/
def TokenFor (g : Grammar) (t : Ts.Tok) (s : Sym) : Prop :=
  (s = .eof ∧ t.kind = "EOF".toList) ∨ (s ∈ g.tokens ∧ ∃ w, Stands t s w)

/-- No two terminals are spelled alike, and none is spelled like the end marker. -/
def DistinctKinds (g : Grammar) : Prop :=
  DistinctSpellings g ∧ ∀ s ∈ g.tokens, IsTerm s → spelling s ≠ "EOF".toList

end Verif.Spec
