import Verif.Model.Grammar

/-! # The comparisons written by hand in src/parser/ast.rs and src/parser/mod.rs -/

namespace Verif

/-- `Ord for str` as an `Ordering` (`a.cmp(b)` at src/parser/ast.rs:123,124,127 and
src/parser/mod.rs:253-255). -/
def strCmp (s t : Str) : Ordering := if blt s t then .lt else if blt t s then .gt else .eq

namespace Sym

/-- `Symbol::precedence` (src/parser/mod.rs:238-246). -/
def precedence : Sym → Nat
  | epsilon => 0
  | strLit _ => 1
  | nonTerm _ => 2
  | regex _ => 3
  | eof => 4

/-- `Symbol::compare` (src/parser/mod.rs:248-258).  No other function calls it: the sets of symbols are
sorted by the derived `Ord` (`BOrd Sym`). -/
def compare : Sym → Sym → Ordering
  | epsilon, _ => .lt
  | strLit a, strLit b => strCmp a b
  | regex a, regex b => strCmp a b
  | nonTerm a, nonTerm b => strCmp a b
  | a, b => Ord.compare a.precedence b.precedence

end Sym

namespace Ast.InSym

/-- `InputSymbol::precedence` (src/parser/ast.rs:107-116). -/
def precedence : InSym → Nat
  | epsilon => 0
  | strLit _ => 1
  | named _ _ => 2
  | nonTerm _ => 4
  | regex _ => 5
  | eof => 6

/-- `InputSymbol::compare` (src/parser/ast.rs:118-136), hence its `Ord` and `PartialOrd`
(152-162). -/
def compare : InSym → InSym → Ordering
  | epsilon, _ => .lt
  | strLit a, strLit b => strCmp a b
  | regex a, regex b => strCmp a b
  | named m a, named n b =>
    match compare a b with
    | .eq =>
      match m, n with
      | some m, some n => strCmp m n
      | some _, none => .gt
      | none, some _ => .lt
      | none, none => .lt
    | o => o
  | a, b => Ord.compare a.precedence b.precedence

end Ast.InSym
end Verif
