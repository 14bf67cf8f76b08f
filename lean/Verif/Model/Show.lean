import Verif.Model.Item
import Verif.Model.LexText

/-! # Printing of productions, items and item sets

What `{}` and `{:#?}` give for symbols, productions and sets of items; a test of the repository
(src/lalr/item.rs:445-495) compares this text. -/

namespace Verif.Show

/-- `Display for Symbol` (src/parser/mod.rs:261-271). -/
def display : Sym → Str
  | .strLit s => s
  | .nonTerm s => s
  | .regex s => s
  | .epsilon => ['ε']
  | .eof => ['﹩']

/-- The loop of `ProductionDebug` (src/parser/mod.rs:319-321; `dot` is `none`) and of `Item::debug_grammar`
(src/lalr/item.rs:123-128): `i` is the position of the first symbol, `last` that of the last one. -/
def loop (dot : Option Nat) (last : Nat) : Nat → List Sym → Str
  | _, [] => []
  | i, t :: ts => (if dot = some i then ['⋅'] else []) ++ display t ++ (if last = i then [] else [' ']) ++ loop dot last (i + 1) ts

/-- The text between the name and the symbols (src/parser/mod.rs:313, src/lalr/item.rs:117). -/
def arrow : Str := [' ', '⇒', ' ', ' ']

/-- `last` (src/parser/mod.rs:314-318, src/lalr/item.rs:118-122). -/
def lastOf (ts : List Sym) : Nat := if ts.isEmpty then 0 else ts.length - 1

/-- `Debug for ProductionDebug` (src/parser/mod.rs:310-324). -/
def production (p : Production) : Str := p.name ++ arrow ++ loop none (lastOf p.inputs) 0 p.inputs

/-- `Item::debug_grammar` (src/lalr/item.rs:109-136).  The last line is the derived `Debug` of `Item`. -/
def item (g : Grammar) (it : Item) : Str :=
  match g.prods[it.1]? with
  | some p => p.name ++ arrow ++ loop (some it.2) (lastOf p.inputs) 0 p.inputs ++ (if it.2 = p.inputs.length then ['⋅'] else [])
  | none => "Item(ProductionIdx(".toList ++ LexGen.digits it.1 ++ "), ".toList ++ LexGen.digits it.2 ++ [')']

/-- The derived `Debug` of `&str` and `Ident`, as used by `Symbol` (src/parser/mod.rs:29-36, src/parser/ast.rs:38-40).
Simplification: only quotes, backslashes and line breaks are escaped; the standard library also escapes other
characters that are not printable. -/
def quoted (s : Str) : Str :=
  ['"'] ++ s.flatMap (fun c => if c = '"' then ['\\', '"'] else if c = '\\' then ['\\', '\\'] else if c = '\n' then ['\\', 'n'] else [c]) ++ ['"']

/-- The derived `Debug` of `Symbol` (src/parser/mod.rs:29-36). -/
def symbol : Sym → Str
  | .strLit s => "StrLit(".toList ++ quoted s ++ [')']
  | .nonTerm s => "NonTerminal(Ident(".toList ++ quoted s ++ "))".toList
  | .regex s => "Regex(".toList ++ quoted s ++ [')']
  | .epsilon => "Epsilon".toList
  | .eof => "Eof".toList

/-- `TokenIdx::debug_grammar` (src/lalr/item.rs:46-55). -/
def token (g : Grammar) (t : Nat) : Str :=
  match g.getToken t with
  | some s => symbol s
  | none => "TokenIdx(".toList ++ LexGen.digits t ++ [')']

/-- Four spaces at the beginning of every line, as `{:#?}` writes what is nested (used at src/lalr/item.rs:307-312,
364-374); `b`: at the beginning of a line. -/
def indent : Bool → Str → Str
  | _, [] => []
  | b, c :: s => (if b then [' ', ' ', ' ', ' '] else []) ++ c :: indent (c == '\n') s

/-- `debug_set` with `{:#?}` (used at src/lalr/item.rs:307-312, 372-374). -/
def set (es : List Str) : Str :=
  if es.isEmpty then ['{', '}'] else ['{', '\n'] ++ es.flatMap (fun e => indent true (e ++ [',', '\n'])) ++ ['}']

/-- `Debug for ItemLookaheadDebug` with `{:#?}` (src/lalr/item.rs:362-369). -/
def entry (g : Grammar) (e : Item × List Nat) : Str :=
  "Item {\n".toList ++ indent true ("item: ".toList ++ item g e.1 ++ ",\n".toList) ++
    indent true ("lookahead_tokens: ".toList ++ set (e.2.map (token g)) ++ ",\n".toList) ++ ['}']

/-- `ItemSet::display` with `{:#?}` (src/lalr/item.rs:302-312, 357-361). -/
def itemSet (g : Grammar) (s : ItemSet) : Str := set (s.map (entry g))

end Verif.Show
