import Verif.Model.Lex

/-! # src/parser/ast.rs, src/parser/mod.rs -/

namespace Verif

/-- `parser::Symbol` (src/parser/mod.rs:29-36). -/
inductive Sym where
  | strLit (s : Str)
  | nonTerm (s : Str)
  | regex (s : Str)
  | epsilon
  | eof
deriving DecidableEq, Repr

namespace Sym
/-- Variant number of the derived `Ord` of `Symbol` (src/parser/mod.rs:29-36). -/
def rank : Sym → Nat
  | strLit _ => 0
  | nonTerm _ => 1
  | regex _ => 2
  | epsilon => 3
  | eof => 4
/-- The payload compared by the derived `Ord` when variants are equal
(src/parser/mod.rs:29-36). -/
def text : Sym → Str
  | strLit s => s
  | nonTerm s => s
  | regex s => s
  | epsilon => []
  | eof => []
/-- `as_non_terminal` (src/parser/mod.rs:224-229). -/
def asNonTerminal : Sym → Option Str
  | nonTerm s => some s
  | _ => none
/-- `is_terminal` (src/parser/mod.rs:231-236). -/
def isTerminal : Sym → Bool
  | nonTerm _ => false
  | _ => true
end Sym

/-- Derived `Ord` of `Symbol` (src/parser/mod.rs:29): variant first, then text. -/
instance : BOrd Sym :=
  ⟨fun a b => if a.rank < b.rank then true else if b.rank < a.rank then false
              else blt a.text b.text⟩

namespace Ast

/-- `ast::InputSymbol` with `NamedSymbol` (src/parser/ast.rs:22-36). -/
inductive InSym where
  | strLit (s : Str)
  | named (name : Option Str) (ty : InSym)
  | nonTerm (s : Str)
  | regex (s : Str)
  | epsilon
  | eof
deriving DecidableEq, Repr

/-- `InputSymbol::lower` (src/parser/ast.rs:47-58). -/
def InSym.lower : InSym → Sym
  | .strLit s => .strLit s
  | .named _ ty => ty.lower
  | .nonTerm s => .nonTerm s
  | .regex s => .regex s
  | .epsilon => .epsilon
  | .eof => .eof

/-- `ast::ProductionBody` (src/parser/ast.rs:16-20). -/
structure Body where
  inputs : List InSym
  mapping : Str
deriving DecidableEq, Repr

/-- `ast::Production` (src/parser/ast.rs:8-14). -/
structure Prod where
  name : Str
  bodies : List Body
  isStart : Bool
  tsCode : Str
deriving DecidableEq, Repr

end Ast

/-- `parser::Production` (src/parser/mod.rs:38-44). -/
structure Production where
  name : Str
  inputs : List Sym
  mapping : Option Str
  tsType : Option Str
deriving DecidableEq, Repr

/-- `parser::Grammar` (src/parser/mod.rs:20-27). -/
structure Grammar where
  nameMap : List (Str × List Nat)
  prods : List Production
  tokens : List Sym
  augName : Str
deriving DecidableEq, Repr

namespace Grammar

/-- `Production::from_ast` (src/parser/mod.rs:277-291). -/
def fromAstBody (p : Ast.Prod) (b : Ast.Body) : Production :=
  { name := p.name, inputs := b.inputs.map Ast.InSym.lower,
    mapping := some b.mapping, tsType := some p.tsCode }

/-- The `entry` match at src/parser/mod.rs:86-93. -/
def addName (name : Str) (idx : Nat) (m : List (Str × List Nat)) : List (Str × List Nat) :=
  match mget name m with
  | none => minsert name [idx] m
  | some l => minsert name (l ++ [idx]) m

/-- Body of the inner loop src/parser/mod.rs:82-94. -/
def addBody (p : Ast.Prod) (acc : List (Str × List Nat) × List Production) (b : Ast.Body) :
    List (Str × List Nat) × List Production :=
  (addName p.name acc.2.length acc.1, acc.2 ++ [fromAstBody p b])

/-- The loops src/parser/mod.rs:81-95. -/
def addProds (acc : List (Str × List Nat) × List Production) (ps : List Ast.Prod) :
    List (Str × List Nat) × List Production :=
  ps.foldl (fun acc p => p.bodies.foldl (addBody p) acc) acc

/-- `grammar_from_ast_productions` (src/parser/mod.rs:57-113). -/
def fromAst (ps : List Ast.Prod) : Res Grammar :=
  match ps.find? (fun p => p.isStart) with
  | none => .error .noStart
  | some start =>
    let aug := start.name ++ ['\'']
    let (nameMap, prods) := addProds
      (minsert aug [0] [],
       [{ name := aug, inputs := [.nonTerm start.name], mapping := none, tsType := none }]) ps
    .ok { nameMap := nameMap, prods := prods,
          tokens := .eof :: ofList (prods.flatMap Production.inputs), augName := aug }

/-- `production_iter` (src/parser/mod.rs:120-126, 294-305): indices of the
productions of a nonterminal.  Simplification: the iterator's stop at an
out-of-range index is dropped (indices are in range, C17). -/
def productionIter (g : Grammar) (name : Str) : Res (List Nat) :=
  match mget name g.nameMap with
  | none => .error .undefinedNonTerminal
  | some l => .ok l

/-- `get_production(idx).unwrap()` (src/parser/mod.rs:160-162, src/lalr/item.rs:77).
Simplification: an out-of-range index gives an empty production instead of a
panic; item indices are in range (C22). -/
def prodAt (g : Grammar) (p : Nat) : Production := g.prods.getD p ⟨[], [], none, none⟩

/-- `get_token` (src/parser/mod.rs:164-166). -/
def getToken (g : Grammar) (i : Nat) : Option Sym := g.tokens[i]?

/-- `get_token_idx` (src/parser/mod.rs:168-176): first position. -/
def getTokenIdx (g : Grammar) (s : Sym) : Option Nat := g.tokens.findIdx? fun t => decide (t = s)

/-- `non_terminals` (src/parser/mod.rs:144-154), names only. -/
def nonTerminals (g : Grammar) : List Str := g.tokens.filterMap Sym.asNonTerminal

/-- What `RegexParser::parse(&regex::escape(s))` returns (src/parser/mod.rs:208):
the literal text.  Simplification: the external crates `regex`/`regex-syntax` are
represented by this result. -/
def litHir : Str → Hir
  | [] => .empty
  | [c] => .lit c.toNat
  | cs => .concat (cs.map fun c => .lit c.toNat)

/-- `to_token_def_with_regex` (src/parser/mod.rs:199-222).  `rx` is
`RegexParser::parse`, an external crate. -/
def tokenDefWithRegex (rx : Str → Option Hir) (idx : Nat) : Sym → Res (Option (TokenDef × Hir))
  | .strLit s => .ok (some (⟨s, true, some idx⟩, litHir s))
  | .regex s =>
    match rx s with
    | some h => .ok (some (⟨s, true, some idx⟩, h))
    | none => .error .badRegex
  | _ => .ok none

/-- The loop of `Lex::from_grammar` (src/lex/lex.rs:58-65). -/
def tokenDefs (rx : Str → Option Hir) : Nat → List Sym → Res (List (TokenDef × Hir))
  | _, [] => .ok []
  | i, s :: ss => do
    let d ← tokenDefWithRegex rx i s
    let ds ← tokenDefs rx (i + 1) ss
    match d with
    | some d => return d :: ds
    | none => return ds

/-- `Lex::from_grammar` (src/lex/lex.rs:55-68). -/
def lexer (rx : Str → Option Hir) (ord : Nfa.Order) (g : Grammar) : Res Lex := do
  let ds ← tokenDefs rx 0 g.tokens
  Lex.fromTokens ord ds

end Grammar
end Verif
