import Verif.Props.FrontEnd

/-! # Tests: the model against the generated files in the repository

Evaluation of the model on basic_lisp.tlalr, compared with ts/lex_state.gen.ts and
ts/parse_state2.gen.ts.  These are tests of the model, not proofs about the code. -/

namespace Verif.Tests
open Verif Spec FrontEnd Props

/-- The characters of a string literal. -/
local macro "chars!" s:str : term => do
  let cs := s.getString.toList.map fun c => Lean.Syntax.mkCharLit c
  `([$(cs.toArray),*])

set_option maxRecDepth 50000

/-- The text of ts/lex_state.gen.ts. -/
def lexFile : Str :=
  chars! "/**\n            * These are generated DFA states for the lexer.\n            * Don't edit this file.\n            */\n            \n            type TokenDef2 = {\n                    kind: \"(\",\n                    hasValue: true\n                }\n                \n                type TokenDef5 = {\n                    kind: \")\",\n                    hasValue: true\n                }\n                \n                type TokenDef8 = {\n                    kind: \"add\",\n                    hasValue: true\n                }\n                \n                type TokenDef13 = {\n                    kind: \"[1-9]+[0-9]*\",\n                    hasValue: true\n                }\n                \n                export type Tokens = {\n  2: TokenDef2;  5: TokenDef5;  8: TokenDef8;  13: TokenDef13;\n}\n\ntype State0 = {\n                    to: [1,2,3,4],\n                    labels: [{ from: 40, to: 41 },{ from: 41, to: 42 },{ from: 49, to: 58 },{ from: 97, to: 98 }],\n                    accepting: false\n                }\n                \n                type State1 = {\n                    to: [],\n                    labels: [],\n                    accepting: true\n                }\n                \n                type State2 = {\n                    to: [],\n                    labels: [],\n                    accepting: true\n                }\n                \n                type State3 = {\n                    to: [5,6],\n                    labels: [{ from: 48, to: 49 },{ from: 49, to: 58 }],\n                    accepting: true\n                }\n                \n                type State4 = {\n                    to: [7],\n                    labels: [{ from: 100, to: 101 }],\n                    accepting: false\n                }\n                \n                type State5 = {\n                    to: [5,5],\n                    labels: [{ from: 48, to: 49 },{ from: 49, to: 58 }],\n                    accepting: true\n                }\n                \n                type State6 = {\n                    to: [5,6],\n                    labels: [{ from: 48, to: 49 },{ from: 49, to: 58 }],\n                    accepting: true\n                }\n                \n                type State7 = {\n                    to: [8],\n                    labels: [{ from: 100, to: 101 }],\n                    accepting: false\n                }\n                \n                type State8 = {\n                    to: [],\n                    labels: [],\n                    accepting: true\n                }\n                \n                export type States = [State0, State1, State2, State3, State4, State5, State6, State7, State8];\n\nexport type DFAtoNFA = {\n  1: [ 2 ],\n2: [ 5 ],\n3: [ 13, 16, 17, 18, 19, 20, 21, 22 ],\n4: [ 10 ],\n5: [ 13, 14, 15, 16, 17 ],\n6: [ 13, 14, 15, 16, 17, 18, 19, 20, 21, 22 ],\n7: [ 9 ],\n8: [ 8 ],\n}"

/-- The text of ts/parse_state2.gen.ts up to the first import; the file in the
repository has been formatted. -/
def parseFile : Str :=
  chars! "export declare module type_defs {\n  export type Symbol =\n    | { kind: \"token\"; token: L.Token }\n    | { kind: \"SExpr\"; value: actions.SExpr }\n    | { kind: \"Exprs\"; value: actions.Exprs }\n    | { kind: \"Expr\"; value: actions.Expr };\n\n  export type Token =\n    | { kind: \"strlit\"; value: string }\n    | { kind: \"nonterminal\"; value: string }\n    | { kind: \"regex\"; value: string }\n    | { kind: \"eof\" };\n\n  export type Tokens = {\n    0: { kind: \"eof\" };\n    1: { kind: \"strlit\"; value: \"(\" };\n    2: { kind: \"strlit\"; value: \")\" };\n    3: { kind: \"strlit\"; value: \"add\" };\n    4: { kind: \"nonterminal\"; value: \"Expr\" };\n    5: { kind: \"nonterminal\"; value: \"Exprs\" };\n    6: { kind: \"nonterminal\"; value: \"SExpr\" };\n    7: { kind: \"regex\"; value: \"[1-9]+[0-9]*\" };\n  };\n\n  export type Production = {\n    name: string;\n    tokens: Array<keyof Tokens>;\n  };\n\n  export type Productions = {\n    0: { name: \"SExpr'\"; tokens: [6] };\n    1: { name: \"SExpr\"; tokens: [1, 5, 2] };\n    2: { name: \"Exprs\"; tokens: [4, 5] };\n    3: { name: \"Exprs\"; tokens: [4] };\n    4: { name: \"Expr\"; tokens: [6] };\n    5: { name: \"Expr\"; tokens: [3] };\n    6: { name: \"Expr\"; tokens: [7] };\n  };\n\n  export type Action = {\n    0: { 1: { shift: 2 } };\n    1: { 0: { accept: true } };\n    2: { 1: { shift: 2 }; 3: { shift: 7 }; 7: { shift: 3 } };\n    3: {\n      1: { reduce: 6 };\n      2: { reduce: 6 };\n      3: { reduce: 6 };\n      7: { reduce: 6 };\n    };\n    4: {\n      1: { reduce: 4 };\n      2: { reduce: 4 };\n      3: { reduce: 4 };\n      7: { reduce: 4 };\n    };\n    5: { 2: { shift: 9 } };\n    6: { 1: { shift: 2 }; 2: { reduce: 3 }; 3: { shift: 7 }; 7: { shift: 3 } };\n    7: {\n      1: { reduce: 5 };\n      2: { reduce: 5 };\n      3: { reduce: 5 };\n      7: { reduce: 5 };\n    };\n    8: { 2: { reduce: 2 } };\n    9: {\n      0: { reduce: 1 };\n      1: { reduce: 1 };\n      2: { reduce: 1 };\n      3: { reduce: 1 };\n      7: { reduce: 1 };\n    };\n  };\n  export type Goto = {\n    0: {\n      SExpr: 1;\n    };\n    2: {\n      Expr: 6;\n\n      Exprs: 5;\n\n      SExpr: 4;\n    };\n    6: {\n      Expr: 6;\n\n      Exprs: 8;\n\n      SExpr: 4;\n    };\n  };\n  export type TokenKindToIdx = {\n    EOF: 0;\n    \"(\": 1;\n    \")\": 2;\n    add: 3;\n    \"[1-9]+[0-9]*\": 7;\n  };\n}\n"

/-- The generated tables. -/
def lispT : ParseGen.Tables := (ParseGen.generate lispAst lispL).toOption.getD ⟨[], [], [], [], [], []⟩

-- The text of the lexer file is that in the repository, character by character.
example : (LexGen.Tables.new lispL.lexer).text = lexFile := by decide +kernel

-- The reader of the specification reads it as the tables of the model.
example : (readText lexFile).bind lexTables = some (LexGen.Tables.new lispL.lexer) := by decide +kernel

-- The tables in the parser file are those of the model.
example : ((readText parseFile).bind typeDefs).map (fun d => decide (d.symbols = lispT.symbols) &&
    decide (d.tokens = (lower lispAst).tokens) && decide (d.productions = lispT.productions) &&
    decide (d.action = lispT.action) && decide (d.goto = lispT.goto) && decide (d.kindToIdx = lispT.kindToIdx)) =
      some true := by decide +kernel

end Verif.Tests
