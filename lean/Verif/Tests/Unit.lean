import Verif.Props.FrontEnd
import Verif.Model.Show

/-! # Tests: the model against the unit tests of the repository

The assertions of the `#[test]` functions of src/lex/nfa.rs, src/lex/dfa.rs,
src/lex/lex.rs, src/lalr/item.rs and src/lalr.rs, evaluated on the model.  The regex
parser is not modelled, so every pattern is given as the tree it is parsed to.  These
are tests of the model, not proofs about the code. -/

namespace Verif.Tests
open Verif Spec FrontEnd Props

/-- The characters of a string literal. -/
local macro "chars!" s:str : term => do
  let cs := s.getString.toList.map fun c => Lean.Syntax.mkCharLit c
  `([$(cs.toArray),*])

/-- The literal text of a pattern, as a tree. -/
local macro "word!" s:str : term => do
  let cs := s.getString.toList.map fun c => Lean.Syntax.mkNumLit (toString c.toNat)
  `(Hir.concat [$[Hir.lit $(cs.toArray)],*])

set_option maxRecDepth 50000

/-- The iteration order used below. -/
def plain : Nfa.Order := fun _ l => l

/-- `NFA::from_regex(&hir).simulate(s)`. -/
def sim (h : Hir) (s : Str) : Option Bool :=
  (do let n ← Nfa.fromRegex h; n.simulate plain s).toOption

/-- The automaton `DFA::from_nfa(NFA::from_regex(&hir))`. -/
def dfaOf (h : Hir) : Option Dfa :=
  (do let n ← Nfa.fromRegex h; Dfa.fromNfa n plain).toOption

/-- Its answers on a list of texts. -/
def answers (h : Hir) (ss : List Str) : Option (List Bool) := (dfaOf h).map fun d => ss.map d.test

/-- `Lex::from_tokens(tokens).lex(s)`. -/
def lexed (toks : List (TokenDef × Hir)) (s : Str) : Option (List Token) :=
  (do let l ← Lex.fromTokens plain toks; l.lex s).toOption

/-- `new_token`. -/
def newToken (name : Str) (h : Hir) : TokenDef × Hir := (⟨name, false, none⟩, h)
/-- `new_token_val`. -/
def newTokenVal (name : Str) (h : Hir) : TokenDef × Hir := (⟨name, true, none⟩, h)
/-- `tok`. -/
def tok (name : Str) : Token := ⟨name, none⟩
/-- `tok_val`. -/
def tokVal (name val : Str) : Token := ⟨name, some val⟩

/-- `[0-9]`. -/
def digit : Hir := .cls [(48, 57)]
/-- `[A-Za-z_][A-Za-z_0-9]*`. -/
def identRx : Hir :=
  .concat [.cls [(65, 90), (95, 95), (97, 122)], .rep .zeroOrMore (.cls [(48, 57), (65, 90), (95, 95), (97, 122)])]

/-! ## src/lex/nfa.rs:573-660 -/

example : sim (word! "lolfucku") (chars! "lolfucku") = some true := by decide +kernel
example : sim (word! "lolfucku✅") (chars! "lolfucku✅") = some true := by decide +kernel

example : [chars! "lmao", chars! "lol", chars! "bruh", chars! "dflsdjf"].map
    (sim (.alt [word! "lmao", word! "lol", word! "bruh"])) =
      [some true, some true, some true, some false] := by decide +kernel

example : [chars! "bcd", chars! "abcd", chars! "aaaabcd", chars! "aaaaaaabcd", chars! "cbcd"].map
    (sim (.concat [.rep .zeroOrMore (.lit 97), .lit 98, .lit 99, .lit 100])) =
      [some true, some true, some true, some true, some false] := by decide +kernel

example : [chars! "bcd", chars! "abcd", chars! "aaaabcd", chars! "aaaaaaabcd", chars! "cbcd"].map
    (sim (.concat [.rep .oneOrMore (.lit 97), .lit 98, .lit 99, .lit 100])) =
      [some false, some true, some true, some true, some false] := by decide +kernel

example : [chars! "bcd", chars! "abcd", chars! "aaaabcd", chars! "aaaaaaabcd", chars! "cbcd"].map
    (sim (.concat [.rep .zeroOrOne (.lit 97), .lit 98, .lit 99, .lit 100])) =
      [some true, some true, some false, some false, some false] := by decide +kernel

example : [chars! "bcd", chars! "cbcd", chars! "abcd", chars! "aaaabcd", chars! "aaaaaaabcd"].map
    (sim (.rep .zeroOrMore (.cls [(0, 96), (98, 0x10FFFF)]))) =
      [some true, some true, some false, some false, some false] := by decide +kernel

/-! ## src/lex/dfa.rs:385-460 -/

example : answers (.concat [.rep .zeroOrMore (.lit 97), .lit 97, .lit 98])
    [chars! "aaaaaab", chars! "ab", chars! "b"] = some [true, true, false] := by decide +kernel

example : answers (.concat [.rep .zeroOrMore (.group (word! "fuck")), .lit 102, .lit 117, .lit 99, .lit 107,
      .lit 121, .lit 111, .lit 117])
    [chars! "fuckfuckyou", chars! "fuckkkk"] = some [true, false] := by decide +kernel

example : answers (.concat [.rep .zeroOrMore (.group (.alt [.lit 102, .lit 117, .lit 99, .lit 107])), .lit 102,
      .lit 117, .lit 99, .lit 107, .lit 121, .lit 111, .lit 117])
    [chars! "fffuuuucccckkkfuckyou", chars! "fuckkkkfuckyou", chars! "fuckyou", chars! "ffuckyou",
      chars! "zfuckyou"] = some [true, true, true, true, false] := by decide +kernel

example : answers (.lit 113) [chars! "q", chars! "qqq", chars! "a", []] = some [true, false, false, false] := by
  decide +kernel

example : (dfaOf (.rep .oneOrMore digit)).map (fun d => d.simulate (chars! "420")) = some (some 3) := by
  decide +kernel

example : answers identRx [chars! "foo", chars! "_foo", chars! "foo_123_lsdkfj", chars! "9foo", []] =
    some [true, true, true, false, false] := by decide +kernel

example : answers (.concat [.rep .zeroOrOne (.lit 97), .lit 98, .lit 99, .lit 100])
    [chars! "bcd", chars! "abcd", chars! "aaaabcd", chars! "aaaaaaabcd", chars! "cbcd"] =
      some [true, true, false, false, false] := by decide +kernel

/-! ## src/lex/lex.rs:340-486 -/

example : lexed [newToken (chars! "number") (.rep .oneOrMore digit), newToken (chars! "+") (.lit 43)]
    (chars! "420 + 69") = some [tok (chars! "number"), tok (chars! "+"), tok (chars! "number")] := by
  decide +kernel

example : lexed [newToken (chars! "bb") (word! "bb"), newToken (chars! "bbb") (word! "bbb")] (chars! "bbbbb") =
    some [tok (chars! "bbb"), tok (chars! "bb")] := by decide +kernel

/-- `a*b+`. -/
def starPlus : Hir := .concat [.rep .zeroOrMore (.lit 97), .rep .oneOrMore (.lit 98)]
/-- `a*b*`. -/
def starStar : Hir := .concat [.rep .zeroOrMore (.lit 97), .rep .zeroOrMore (.lit 98)]

example : ((lexed [newToken (chars! "abbb") (word! "abbb"), newToken (chars! "a*b+") starPlus]
    (chars! "abbbbbbb")).bind fun l => l[0]?) = some (tok (chars! "a*b+")) := by decide +kernel

example : ((lexed [newToken (chars! "a*b+") starPlus, newToken (chars! "a*b*") starStar,
    newToken (chars! "abbb") (word! "abbb")] (chars! "abbb")).bind fun l => l[0]?) =
      some (tok (chars! "a*b+")) := by decide +kernel
example : ((lexed [newToken (chars! "a*b*") starStar, newToken (chars! "a*b+") starPlus,
    newToken (chars! "abbb") (word! "abbb")] (chars! "abbb")).bind fun l => l[0]?) =
      some (tok (chars! "a*b*")) := by decide +kernel
example : ((lexed [newToken (chars! "abbb") (word! "abbb"), newToken (chars! "a*b+") starPlus,
    newToken (chars! "a*b*") starStar] (chars! "abbb")).bind fun l => l[0]?) =
      some (tok (chars! "abbb")) := by decide +kernel

example : lexed [newTokenVal (chars! "number") (.rep .zeroOrMore digit),
    newTokenVal (chars! "op") (.alt [.lit 43, .lit 45])] (chars! "420 + 69") =
      some [tokVal (chars! "number") (chars! "420"), tokVal (chars! "op") (chars! "+"),
        tokVal (chars! "number") (chars! "69")] := by decide +kernel

example : lexed [newTokenVal (chars! "number") (.rep .zeroOrMore digit), newToken (chars! "+") (.lit 43)]
    (chars! "420 + 69") =
      some [tokVal (chars! "number") (chars! "420"), tok (chars! "+"), tokVal (chars! "number") (chars! "69")] := by
  decide +kernel

example : lexed [newToken (chars! "let") (word! "let"), newTokenVal (chars! "number") (.rep .zeroOrMore digit),
    newToken (chars! "+") (.lit 43), newTokenVal (chars! "identifier") identRx, newToken (chars! "=") (.lit 61),
    newToken (chars! ";") (.lit 59)] (chars! "let foo = 420;") =
      some [tok (chars! "let"), tokVal (chars! "identifier") (chars! "foo"), tok (chars! "="),
        tokVal (chars! "number") (chars! "420"), tok (chars! ";")] := by decide +kernel

/-- `[\+\-\*A-Za-z_\.-][A-Za-z_\.-0-9]*`; the second class has the range from `.` to
`0`, then `-` and `9`. -/
def symbolRx : Hir :=
  .concat [.cls [(42, 43), (45, 46), (65, 90), (95, 95), (97, 122)],
    .rep .zeroOrMore (.cls [(45, 48), (57, 57), (65, 90), (95, 95), (97, 122)])]

example : lexed [newToken (chars! "(") (.lit 40), newToken (chars! ")") (.lit 41),
    newTokenVal (chars! "symbol") symbolRx,
    newTokenVal (chars! "string") (.concat [.lit 34, .rep .zeroOrMore (.cls [(0, 33), (35, 0x10FFFF)]), .lit 34]),
    newTokenVal (chars! "int") (.concat [.cls [(49, 57)], .rep .zeroOrMore digit]),
    newTokenVal (chars! "float") (.concat [.rep .zeroOrOne (.cls [(43, 43), (45, 45)]),
      .rep .zeroOrOne (.group (.concat [.rep .zeroOrMore digit, .cls [(46, 46)]])), .rep .oneOrMore digit])]
    (chars! "(print \"Stuff\" \"HI\" (+ 400 20) (- 70.0 1.0))") =
      some [tok (chars! "("), tokVal (chars! "symbol") (chars! "print"),
        tokVal (chars! "string") (chars! "\"Stuff\""), tokVal (chars! "string") (chars! "\"HI\""),
        tok (chars! "("), tokVal (chars! "symbol") (chars! "+"), tokVal (chars! "int") (chars! "400"),
        tokVal (chars! "int") (chars! "20"), tok (chars! ")"),
        tok (chars! "("), tokVal (chars! "symbol") (chars! "-"), tokVal (chars! "float") (chars! "70.0"),
        tokVal (chars! "float") (chars! "1.0"), tok (chars! ")"), tok (chars! ")")] := by decide +kernel

/-! ## src/lalr/item.rs:438-495 -/

/-- The grammar file of the tests of src/lalr/item.rs and src/lalr/table.rs. -/
def ccText : Str :=
  chars! "
            export start S: () = [ 
                <c1: C> <c2: C> => (\"nothing to see here\")
            ]

            export C: () = [
                \"c\" <c: C> => (\"OK\"),
                \"d\" => (\"noob\")
            ]
        "

/-- An item as printed: name, right side, position of the dot, lookahead tokens. -/
structure Shown where
  name : Str
  inputs : List Sym
  dot : Nat
  lookaheads : List (Option Sym)
deriving DecidableEq

/-- The printed items of a set. -/
def shown (g : Grammar) (set : ItemSet) : List Shown :=
  set.map fun p => ⟨(g.prodAt p.1.1).name, (g.prodAt p.1.1).inputs, p.1.2, p.2.map g.getToken⟩

/-- The closure of the initial items of a grammar file. -/
def initialShown (text : Str) : Res (List Shown) := do
  let ast ← parseGrammar text
  let g ← Grammar.fromAst ast
  let s ← ItemSet.closure g (Lalr.depthOf g) ItemSet.initial
  return shown g s

example : (initialShown ccText).toOption = some
    [⟨chars! "S'", [.nonTerm ['S']], 0, [some .eof]⟩,
     ⟨chars! "S", [.nonTerm ['C'], .nonTerm ['C']], 0, [some .eof]⟩,
     ⟨chars! "C", [.strLit ['c'], .nonTerm ['C']], 0, [some (.strLit ['c']), some (.strLit ['d'])]⟩,
     ⟨chars! "C", [.strLit ['d']], 0, [some (.strLit ['c']), some (.strLit ['d'])]⟩] := by decide +kernel

/-- The text that the test prints. -/
def initialText (text : Str) : Res Str := do
  let ast ← parseGrammar text
  let g ← Grammar.fromAst ast
  let s ← ItemSet.closure g (Lalr.depthOf g) ItemSet.initial
  return Show.itemSet g s

-- src/lalr/item.rs:466-494, the text itself
set_option maxRecDepth 20000 in
example : (initialText ccText).toOption = some (chars! "{
    Item {
        item: S' ⇒  ⋅S,
        lookahead_tokens: {
            Eof,
        },
    },
    Item {
        item: S ⇒  ⋅C C,
        lookahead_tokens: {
            Eof,
        },
    },
    Item {
        item: C ⇒  ⋅c C,
        lookahead_tokens: {
            StrLit(\"c\"),
            StrLit(\"d\"),
        },
    },
    Item {
        item: C ⇒  ⋅d,
        lookahead_tokens: {
            StrLit(\"c\"),
            StrLit(\"d\"),
        },
    },
}") := by decide +kernel

/-! ## src/lalr.rs:170-350

These tests only check that nothing panics; the model also tells the reductions. -/

/-- The reductions reported for an input, from the grammar file on. -/
def parsed (text : Str) (rx : Str → Option Hir) (input : Str) : Res (List Nat) := do
  let ast ← parseGrammar text
  let g ← Grammar.fromAst ast
  let l ← Lalr.new id rx plain g
  l.parse 200 input

/-- The patterns of the tests. -/
def testRx (s : Str) : Option Hir :=
  if s = chars! "[1-9][0-9]*" then some (.concat [.cls [(49, 57)], .rep .zeroOrMore digit])
  else if s = chars! "[1-9][0-9]+" then some (.concat [.cls [(49, 57)], .rep .oneOrMore digit])
  else if s = chars! "'[^']*'" then
    some (.concat [.lit 39, .rep .zeroOrMore (.cls [(0, 38), (40, 0x10FFFF)]), .lit 39])
  else if s = chars! "[^() ]*" then some (.rep .zeroOrMore (.cls [(0, 31), (33, 39), (42, 0x10FFFF)]))
  else none

/-- `basic`. -/
def basicText : Str :=
  chars! "
            export start S: ({ kind: \"S\", left: C, right: C }) = [ 
                <c1: C> <c2: C> => ({ kind: \"S\", left: c1, right: c2 })
            ]

            export C: ({ kind: \"C\", values: string[] }) = [
                <c1: \"c\"> <c2: C> => ({ kind: \"C\", values: [...c2['values']] }),
                <d: \"d\"> => ({ kind: \"C\", values: [d]})
            ]
        "

/-- `basic_ops`. -/
def opsText : Str :=
  chars! "
            export start Exprs: () = [
                Expr Expr => (\"nice\"),
                Expr => (\"also nice\")
            ]

            export Expr: () = [ 
                <int: Int> => ({ kind: \"int\", int })
            ]

            export Int: () = [
                r\"[1-9][0-9]*\" => (\"lol\")
            ]
        "

/-- `gold_help_me`. -/
def goldText : Str :=
  chars! "
        export start SExpr: ({ kind: \"SExpr\", exprs: Exprs }) = [
            \"(\" <exprs: Exprs> \")\" => ({ kind: \"SExpr\", exprs: exprs })
        ]

        export Exprs: (Expr[]) = [
            <eee: Expr> <es: Exprs> => ([eee, ...es]),
            <eee: Expr> => ([eee])
        ]

        export Expr: ({ kind: \"symbol\", value: \"add\" } | { kind: \"int\", value: string } | { kind: \"sexpr\", sexpr: SExpr }) = [ 
            <sexpr: SExpr> => ({ kind: \"sexpr\", sexpr: sexpr }),
            <str: \"add\"> => ({ kind: \"symbol\", value: str }),
            <int: r\"[1-9][0-9]+\"> => ({ kind: \"int\", value: int })
        ]
    "

/-- `basic_ops2`. -/
def ops2Text : Str :=
  chars! "
            export start Exprs: () = [
                Expr Exprs => (\"nice\"),
                Expr => (\"also nice\")
            ]

            export Expr: () = [ 
                <int: Int> => ({ kind: \"int\", int }),
                <str: String> => ({ kind: \"str\", str }),
            ]

            export Int: () = [
                r\"[1-9][0-9]*\" => (\"lol\")
            ]

            export String: () = [
                r\"'[^']*'\" => (\"lol\")
            ]
        "

/-- `lisp`. -/
def lisp2Text : Str :=
  chars! "
            export start SExpr: () = [
                \"(\" <exprs: Exprs> \")\" => (\"LMAO\")
            ]

            export Exprs: () = [
                Expr Exprs => (\"nice\"),
                Expr => (\"also nice\")
            ]

            export Expr: () = [ 
                <int: Int> => ({ kind: \"int\", int }),
                <str: Symbol> => ({ kind: \"str\", str }),
            ]

            export Int: () = [
                r\"[1-9][0-9]*\" => (\"lol\")
            ]

            export Symbol: () = [
                r\"[^() ]*\" => (\"lol\")
            ]
        "

example : (parsed basicText testRx (chars! "cdd")).toOption =
    some [3, 2, 3, 1] := by decide +kernel
example : (parsed opsText testRx (chars! "42 420")).toOption =
    some [4, 3, 4, 3, 1] := by decide +kernel
example : (parsed goldText testRx (chars! "(add 420 (add 34 35))")).toOption =
    some [5, 6, 5, 6, 6, 3, 2, 2, 1, 4, 3, 2, 2, 1] := by decide +kernel
example : (parsed ops2Text testRx (chars! "42 420 69 9001")).toOption =
    some [5, 3, 5, 3, 5, 3, 5, 3, 2, 1, 1, 1] := by decide +kernel
example : (parsed lisp2Text testRx (chars! "(add 35 34)")).toOption =
    some [7, 5, 6, 4, 6, 4, 3, 2, 2, 1] := by decide +kernel

end Verif.Tests
