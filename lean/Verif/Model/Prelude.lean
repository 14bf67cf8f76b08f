/-!
# Shared vocabulary of the model

Strings, panics, and the three Rust collections the crate uses
(`BTreeSet`, `BTreeMap`, `HashSet`).
-/

namespace Verif

/-- Models `&str`/`String` everywhere in /repo/src.  Simplification: a string is
its list of Unicode scalar values; byte offsets are computed with
`Char.utf8Size` where the code slices by bytes (`Model/Lex.lean`). -/
abbrev Str := List Char

/-- The panic sites of the crate.  Each constructor names the place in /repo/src
that raises it; `outOfFuel` is not in the code: it marks a loop that did not
finish within the fuel given to the model. -/
inductive Err where
  /-- `OptionUsize::unwrap`, src/option_usize.rs:6-11 -/
  | optionUsizeNone
  /-- `todo!()`, src/lex/nfa.rs:158,159,195 -/
  | todo
  /-- `assert!`, src/lex/dfa.rs:336-338 -/
  | assertFailed
  /-- byte slice off a char boundary or out of range, src/lex/lex.rs:238 -/
  | charBoundary
  /-- `None => panic!()`, src/lex/lex.rs:246 -/
  | noTokenDef
  /-- `unwrap` on a missing map entry or `None`, src/lex/lex.rs:145,146 -/
  | unwrapNone
  /-- `RegexParser::parse(..).unwrap()`, src/parser/mod.rs:208,216 -/
  | badRegex
  /-- `expect("Expect start production.")`, src/parser/mod.rs:67 -/
  | noStart
  /-- `production_name_map.get(..).unwrap()`, src/parser/mod.rs:122 -/
  | undefinedNonTerminal
  /-- `get_token_idx(..).unwrap()`, src/lalr/item.rs:242, src/lalr/table.rs:128 -/
  | undefinedToken
  /-- `get_production(..).unwrap()`, src/lalr/item.rs:77,81,92 -/
  | undefinedProduction
  /-- call stack exhausted in `first_of_symbol`, src/lalr/first.rs:32-57 -/
  | stackOverflow
  /-- `panic!("Conflict ..")`, src/lalr/table.rs:140,155,169 -/
  | conflict
  /-- "item set that has been dropped", src/lalr/table.rs:252,265 -/
  | dropped
  /-- `other.0.get(item).unwrap()`, src/lalr/item.rs:172 -/
  | coreMismatch
  /-- `tokens[0]` on an empty slice, src/lalr.rs:57 -/
  | emptyTokens
  /-- `expect("Stack is empty")`, src/lalr.rs:92,131 -/
  | stackEmpty
  /-- `expect("Production is undefined")`, src/lalr.rs:109 -/
  | productionUndefined
  /-- `stack.len() - n` underflow, src/lalr.rs:110 -/
  | underflow
  /-- `expect("Goto is empty")`, src/lalr.rs:132 -/
  | gotoEmpty
  /-- `panic!("Invalid token ..")`, src/lalr.rs:147 -/
  | invalidToken
  /-- `parser.parse(..).unwrap()`, src/lib.rs:14 -/
  | syntaxError
  /-- `unreachable!()`, src/codegen/parse_gen.rs:366,529 -/
  | unreachable
  /-- a loop of the model ran out of fuel -/
  | outOfFuel
deriving DecidableEq, Repr

/-- Result of a Rust function that may panic (any `unwrap`, `expect`, `panic!`
in /repo/src).  Simplification: unwinding is not modelled, only which panic. -/
abbrev Res (α : Type) := Except Err α

/-- Models the `Ord` implementations used as keys of `BTreeSet`/`BTreeMap` in
/repo/src (derived `Ord` of `StateIdx` src/lex/nfa.rs:12, `Match`
src/lex/nfa.rs:492-502, `Symbol` src/parser/mod.rs:29, `Item`
src/lalr/item.rs:28, `TokenIdx` src/lalr/item.rs:17).  `blt a b` is
`a.cmp(&b) == Less`. -/
class BOrd (α : Type) where
  blt : α → α → Bool

export BOrd (blt)

/-- What the Rust `Ord` contract asks of an implementation; proved for each
instance, never assumed for a concrete type.  (Contract of the `Ord` uses listed
at `BOrd`, src/lex/nfa.rs:492-502.) -/
class LawfulBOrd (α : Type) [BOrd α] : Prop where
  irrefl : ∀ a : α, blt a a = false
  trans : ∀ a b c : α, blt a b = true → blt b c = true → blt a c = true
  tri : ∀ a b : α, blt a b = false → blt b a = false → a = b

/-- `BTreeSet::insert` (used at src/lex/dfa.rs:96,157,249,269,
src/parser/mod.rs:100, src/lalr/first.rs:25,40).  A `BTreeSet` is its sorted
list of elements; an element already present is kept. -/
def oinsert {α : Type} [BOrd α] (a : α) : List α → List α
  | [] => [a]
  | b :: l => if blt a b then a :: b :: l else if blt b a then b :: oinsert a l else b :: l

/-- Building a `BTreeSet` by inserting the elements of an iterator one by one
(src/lex/dfa.rs:94-97,154-160, src/parser/mod.rs:97-102). -/
def ofList {α : Type} [BOrd α] (l : List α) : List α := l.foldl (fun s a => oinsert a s) []

/-- `BTreeMap::insert` (src/lex/lex.rs:91,130, src/lex/dfa.rs:200,
src/lalr/table.rs:52-60,234).  A `BTreeMap` is its sorted association list; an
existing value is replaced. -/
def minsert {κ ν : Type} [BOrd κ] (k : κ) (v : ν) : List (κ × ν) → List (κ × ν)
  | [] => [(k, v)]
  | (k', v') :: l =>
    if blt k k' then (k, v) :: (k', v') :: l
    else if blt k' k then (k', v') :: minsert k v l
    else (k, v) :: l

/-- `BTreeMap::get` (src/lex/dfa.rs:47,125, src/lex/lex.rs:145,177,231,
src/lalr/table.rs:35,36, src/parser/mod.rs:122).  Simplification: linear search. -/
def mget {κ ν : Type} [DecidableEq κ] (k : κ) : List (κ × ν) → Option ν
  | [] => none
  | (k', v) :: l => if k = k' then some v else mget k l

/-- `HashSet::insert` (src/lex/nfa.rs:301,321).  A `HashSet` is a duplicate-free
list whose order is meaningless; code that iterates one goes through an order
oracle (`Order`, Model/Nfa.lean). -/
def hinsert (a : Nat) (l : List Nat) : List Nat := if a ∈ l then l else a :: l

/-- Derived `Ord` of the index newtypes (src/lex/nfa.rs:12, src/lalr/item.rs:13,17). -/
instance : BOrd Nat := ⟨fun a b => decide (a < b)⟩

/-- `Ord for str`: lexicographic by bytes, which for UTF-8 is lexicographic by
code point (used by `BTreeMap<&str, _>` src/lex/lex.rs:126-132 and by the derived
`Ord` of `Symbol`/`Ident`, src/parser/mod.rs:29, src/parser/ast.rs:39). -/
def strLt : Str → Str → Bool
  | [], [] => false
  | [], _ :: _ => true
  | _ :: _, [] => false
  | a :: s, b :: t => if a.toNat < b.toNat then true else if b.toNat < a.toNat then false else strLt s t

/-- `Ord for str`, see `strLt` (src/parser/ast.rs:39). -/
instance : BOrd Str := ⟨strLt⟩

/-- Derived lexicographic `Ord` of a pair, used by `Item` (src/lalr/item.rs:28-29). -/
instance {α β : Type} [BOrd α] [BOrd β] : BOrd (α × β) :=
  ⟨fun x y => if blt x.1 y.1 then true else if blt y.1 x.1 then false else blt x.2 y.2⟩

end Verif
