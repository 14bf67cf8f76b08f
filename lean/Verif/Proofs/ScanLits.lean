import Verif.Proofs.ScanOk

/-! # The fixed texts of the generated files, scanned (generated list) -/

namespace Verif.Spec
open Verif

theorem scan_lit0 (out : List TsTok) :
    scanFrom ⟨.between, out⟩ "/**\n            * These are generated DFA states for the lexer.\n            * Don't edit this file.\n            */\n            \n            ".toList =
      ⟨.between, out ++ [.newline, .newline]⟩ :=
  scan_of (by decide +kernel) out

theorem scan_lit1 (out : List TsTok) :
    scanFrom ⟨.between, out⟩ "type TokenDef".toList =
      ⟨.word "TokenDef".toList, out ++ [.word "type".toList]⟩ :=
  scan_of (by decide +kernel) out

theorem scan_lit2 (w : Str) (out : List TsTok) :
    scanFrom ⟨.word w, out⟩ " = {\n                    kind: \"".toList =
      ⟨.quoted '"' [], out ++ [.word w, .punct '=', .punct '{', .newline, .word "kind".toList, .punct ':']⟩ :=
  scan_of rfl out

theorem scan_lit3 (w : Str) (out : List TsTok) :
    scanFrom ⟨.quoted '"' w, out⟩ "\",\n                    hasValue: ".toList =
      ⟨.between, out ++ [.str w, .punct ',', .newline, .word "hasValue".toList, .punct ':']⟩ :=
  scan_of rfl out

theorem scan_lit4 (out : List TsTok) :
    scanFrom ⟨.between, out⟩ "true".toList =
      ⟨.word "true".toList, out ++ []⟩ :=
  scan_of (by decide +kernel) out

theorem scan_lit5 (out : List TsTok) :
    scanFrom ⟨.between, out⟩ "false".toList =
      ⟨.word "false".toList, out ++ []⟩ :=
  scan_of (by decide +kernel) out

theorem scan_lit6 (w : Str) (out : List TsTok) :
    scanFrom ⟨.word w, out⟩ "\n                }\n                \n                ".toList =
      ⟨.between, out ++ [.word w, .newline, .punct '}', .newline, .newline]⟩ :=
  scan_of rfl out

theorem scan_lit7 (out : List TsTok) :
    scanFrom ⟨.between, out⟩ "export type Tokens = {\n".toList =
      ⟨.between, out ++ [.word "export".toList, .word "type".toList, .word "Tokens".toList, .punct '=', .punct '{', .newline]⟩ :=
  scan_of (by decide +kernel) out

theorem scan_lit8 (out : List TsTok) :
    scanFrom ⟨.between, out⟩ "  ".toList =
      ⟨.between, out ++ []⟩ :=
  scan_of (by decide +kernel) out

theorem scan_lit9 (n : Nat) (out : List TsTok) :
    scanFrom ⟨.digits n, out⟩ ": TokenDef".toList =
      ⟨.word "TokenDef".toList, out ++ [.num n, .punct ':']⟩ :=
  scan_of rfl out

theorem scan_lit10 (w : Str) (out : List TsTok) :
    scanFrom ⟨.word w, out⟩ ";".toList =
      ⟨.between, out ++ [.word w, .punct ';']⟩ :=
  scan_of rfl out

theorem scan_lit11 (out : List TsTok) :
    scanFrom ⟨.between, out⟩ "\n}\n\n".toList =
      ⟨.between, out ++ [.newline, .punct '}', .newline, .newline]⟩ :=
  scan_of (by decide +kernel) out

theorem scan_lit12 (out : List TsTok) :
    scanFrom ⟨.between, out⟩ "{ from: ".toList =
      ⟨.between, out ++ [.punct '{', .word "from".toList, .punct ':']⟩ :=
  scan_of (by decide +kernel) out

theorem scan_lit13 (n : Nat) (out : List TsTok) :
    scanFrom ⟨.digits n, out⟩ ", to: ".toList =
      ⟨.between, out ++ [.num n, .punct ',', .word "to".toList, .punct ':']⟩ :=
  scan_of rfl out

theorem scan_lit14 (n : Nat) (out : List TsTok) :
    scanFrom ⟨.digits n, out⟩ " }".toList =
      ⟨.between, out ++ [.num n, .punct '}']⟩ :=
  scan_of rfl out

theorem scan_lit15 (out : List TsTok) :
    scanFrom ⟨.between, out⟩ "type State".toList =
      ⟨.word "State".toList, out ++ [.word "type".toList]⟩ :=
  scan_of (by decide +kernel) out

theorem scan_lit16 (w : Str) (out : List TsTok) :
    scanFrom ⟨.word w, out⟩ " = {\n                    to: [".toList =
      ⟨.between, out ++ [.word w, .punct '=', .punct '{', .newline, .word "to".toList, .punct ':', .punct '[']⟩ :=
  scan_of rfl out

theorem scan_lit17 (out : List TsTok) :
    scanFrom ⟨.between, out⟩ "],\n                    labels: [".toList =
      ⟨.between, out ++ [.punct ']', .punct ',', .newline, .word "labels".toList, .punct ':', .punct '[']⟩ :=
  scan_of (by decide +kernel) out

theorem scan_lit18 (n : Nat) (out : List TsTok) :
    scanFrom ⟨.digits n, out⟩ "],\n                    labels: [".toList =
      ⟨.between, out ++ [.num n, .punct ']', .punct ',', .newline, .word "labels".toList, .punct ':', .punct '[']⟩ :=
  scan_of rfl out

theorem scan_lit19 (n : Nat) (out : List TsTok) :
    scanFrom ⟨.digits n, out⟩ ",".toList =
      ⟨.between, out ++ [.num n, .punct ',']⟩ :=
  scan_of rfl out

theorem scan_lit20 (out : List TsTok) :
    scanFrom ⟨.between, out⟩ ",".toList =
      ⟨.between, out ++ [.punct ',']⟩ :=
  scan_of (by decide +kernel) out

theorem scan_lit21 (out : List TsTok) :
    scanFrom ⟨.between, out⟩ "],\n                    accepting: ".toList =
      ⟨.between, out ++ [.punct ']', .punct ',', .newline, .word "accepting".toList, .punct ':']⟩ :=
  scan_of (by decide +kernel) out

theorem scan_lit22 (out : List TsTok) :
    scanFrom ⟨.between, out⟩ "State".toList =
      ⟨.word "State".toList, out ++ []⟩ :=
  scan_of (by decide +kernel) out

theorem scan_lit23 (out : List TsTok) :
    scanFrom ⟨.between, out⟩ "export type States = [".toList =
      ⟨.between, out ++ [.word "export".toList, .word "type".toList, .word "States".toList, .punct '=', .punct '[']⟩ :=
  scan_of (by decide +kernel) out

theorem scan_lit24 (w : Str) (out : List TsTok) :
    scanFrom ⟨.word w, out⟩ ", ".toList =
      ⟨.between, out ++ [.word w, .punct ',']⟩ :=
  scan_of rfl out

theorem scan_lit25 (n : Nat) (out : List TsTok) :
    scanFrom ⟨.digits n, out⟩ ", ".toList =
      ⟨.between, out ++ [.num n, .punct ',']⟩ :=
  scan_of rfl out

theorem scan_lit26 (out : List TsTok) :
    scanFrom ⟨.between, out⟩ "];\n\n".toList =
      ⟨.between, out ++ [.punct ']', .punct ';', .newline, .newline]⟩ :=
  scan_of (by decide +kernel) out

theorem scan_lit27 (w : Str) (out : List TsTok) :
    scanFrom ⟨.word w, out⟩ "];\n\n".toList =
      ⟨.between, out ++ [.word w, .punct ']', .punct ';', .newline, .newline]⟩ :=
  scan_of rfl out

theorem scan_lit28 (out : List TsTok) :
    scanFrom ⟨.between, out⟩ "export type DFAtoNFA = {\n  ".toList =
      ⟨.between, out ++ [.word "export".toList, .word "type".toList, .word "DFAtoNFA".toList, .punct '=', .punct '{', .newline]⟩ :=
  scan_of (by decide +kernel) out

theorem scan_lit29 (n : Nat) (out : List TsTok) :
    scanFrom ⟨.digits n, out⟩ ": [ ".toList =
      ⟨.between, out ++ [.num n, .punct ':', .punct '[']⟩ :=
  scan_of rfl out

theorem scan_lit30 (out : List TsTok) :
    scanFrom ⟨.between, out⟩ " ],\n".toList =
      ⟨.between, out ++ [.punct ']', .punct ',', .newline]⟩ :=
  scan_of (by decide +kernel) out

theorem scan_lit31 (n : Nat) (out : List TsTok) :
    scanFrom ⟨.digits n, out⟩ " ],\n".toList =
      ⟨.between, out ++ [.num n, .punct ']', .punct ',', .newline]⟩ :=
  scan_of rfl out

theorem scan_lit32 (out : List TsTok) :
    scanFrom ⟨.between, out⟩ "}".toList =
      ⟨.between, out ++ [.punct '}']⟩ :=
  scan_of (by decide +kernel) out

theorem scan_lit33 (out : List TsTok) :
    scanFrom ⟨.between, out⟩ "export type Characters = {".toList =
      ⟨.between, out ++ [.word "export".toList, .word "type".toList, .word "Characters".toList, .punct '=', .punct '{']⟩ :=
  scan_of (by decide +kernel) out

theorem scan_lit34 (out : List TsTok) :
    scanFrom ⟨.between, out⟩ "\n    ".toList =
      ⟨.between, out ++ [.newline]⟩ :=
  scan_of (by decide +kernel) out

theorem scan_lit35 (n : Nat) (out : List TsTok) :
    scanFrom ⟨.digits n, out⟩ ": \"".toList =
      ⟨.quoted '"' [], out ++ [.num n, .punct ':']⟩ :=
  scan_of rfl out

theorem scan_lit36 (w : Str) (out : List TsTok) :
    scanFrom ⟨.quoted '"' w, out⟩ "\",\n".toList =
      ⟨.between, out ++ [.str w, .punct ',', .newline]⟩ :=
  scan_of rfl out

theorem scan_lit37 (out : List TsTok) :
    scanFrom ⟨.between, out⟩ "\n export type CharTable = {".toList =
      ⟨.between, out ++ [.newline, .word "export".toList, .word "type".toList, .word "CharTable".toList, .punct '=', .punct '{']⟩ :=
  scan_of (by decide +kernel) out

theorem scan_lit38 (out : List TsTok) :
    scanFrom ⟨.between, out⟩ "\n\"".toList =
      ⟨.quoted '"' [], out ++ [.newline]⟩ :=
  scan_of (by decide +kernel) out

theorem scan_lit39 (w : Str) (out : List TsTok) :
    scanFrom ⟨.quoted '"' w, out⟩ "\": ".toList =
      ⟨.between, out ++ [.str w, .punct ':']⟩ :=
  scan_of rfl out

theorem scan_lit40 (out : List TsTok) :
    scanFrom ⟨.between, out⟩ "export declare module type_defs {\n".toList =
      ⟨.between, out ++ [.word "export".toList, .word "declare".toList, .word "module".toList, .word "type_defs".toList, .punct '{', .newline]⟩ :=
  scan_of (by decide +kernel) out

theorem scan_lit41 (out : List TsTok) :
    scanFrom ⟨.between, out⟩ "export type Symbol = { kind: \"token\", token: L.Token }".toList =
      ⟨.between, out ++ [.word "export".toList, .word "type".toList, .word "Symbol".toList, .punct '=', .punct '{', .word "kind".toList, .punct ':', .str "token".toList, .punct ',', .word "token".toList, .punct ':', .word "L".toList, .punct '.', .word "Token".toList, .punct '}']⟩ :=
  scan_of (by decide +kernel) out

theorem scan_lit42 (out : List TsTok) :
    scanFrom ⟨.between, out⟩ "| { kind: \"".toList =
      ⟨.quoted '"' [], out ++ [.punct '|', .punct '{', .word "kind".toList, .punct ':']⟩ :=
  scan_of (by decide +kernel) out

theorem scan_lit43 (w : Str) (out : List TsTok) :
    scanFrom ⟨.quoted '"' w, out⟩ "\", value: actions.".toList =
      ⟨.between, out ++ [.str w, .punct ',', .word "value".toList, .punct ':', .word "actions".toList, .punct '.']⟩ :=
  scan_of rfl out

theorem scan_lit44 (w : Str) (out : List TsTok) :
    scanFrom ⟨.word w, out⟩ " }".toList =
      ⟨.between, out ++ [.word w, .punct '}']⟩ :=
  scan_of rfl out

theorem scan_lit45 (out : List TsTok) :
    scanFrom ⟨.between, out⟩ "\n\n".toList =
      ⟨.between, out ++ [.newline, .newline]⟩ :=
  scan_of (by decide +kernel) out

theorem scan_lit46 (out : List TsTok) :
    scanFrom ⟨.between, out⟩ "\nexport type Token =\n  | { kind: \"strlit\"; value: string }\n  | { kind: \"nonterminal\"; value: string }\n  | { kind: \"regex\"; value: string }\n  | { kind: \"eof\" };\n  \n  ".toList =
      ⟨.between, out ++ [.newline, .word "export".toList, .word "type".toList, .word "Token".toList, .punct '=', .newline, .punct '|', .punct '{', .word "kind".toList, .punct ':', .str "strlit".toList, .punct ';', .word "value".toList, .punct ':', .word "string".toList, .punct '}', .newline, .punct '|', .punct '{', .word "kind".toList, .punct ':', .str "nonterminal".toList, .punct ';', .word "value".toList, .punct ':', .word "string".toList, .punct '}', .newline, .punct '|', .punct '{', .word "kind".toList, .punct ':', .str "regex".toList, .punct ';', .word "value".toList, .punct ':', .word "string".toList, .punct '}', .newline, .punct '|', .punct '{', .word "kind".toList, .punct ':', .str "eof".toList, .punct '}', .punct ';', .newline, .newline]⟩ :=
  scan_of (by decide +kernel) out

theorem scan_lit47 (out : List TsTok) :
    scanFrom ⟨.between, out⟩ "export type Tokens = {".toList =
      ⟨.between, out ++ [.word "export".toList, .word "type".toList, .word "Tokens".toList, .punct '=', .punct '{']⟩ :=
  scan_of (by decide +kernel) out

theorem scan_lit48 (out : List TsTok) :
    scanFrom ⟨.between, out⟩ "\n                ".toList =
      ⟨.between, out ++ [.newline]⟩ :=
  scan_of (by decide +kernel) out

theorem scan_lit49 (n : Nat) (out : List TsTok) :
    scanFrom ⟨.digits n, out⟩ ": { kind: \"".toList =
      ⟨.quoted '"' [], out ++ [.num n, .punct ':', .punct '{', .word "kind".toList, .punct ':']⟩ :=
  scan_of rfl out

theorem scan_lit50 (w : Str) (out : List TsTok) :
    scanFrom ⟨.quoted '"' w, out⟩ "\", value: \"".toList =
      ⟨.quoted '"' [], out ++ [.str w, .punct ',', .word "value".toList, .punct ':']⟩ :=
  scan_of rfl out

theorem scan_lit51 (w : Str) (out : List TsTok) :
    scanFrom ⟨.quoted '"' w, out⟩ "\" }".toList =
      ⟨.between, out ++ [.str w, .punct '}']⟩ :=
  scan_of rfl out

theorem scan_lit52 (out : List TsTok) :
    scanFrom ⟨.between, out⟩ "\n".toList =
      ⟨.between, out ++ [.newline]⟩ :=
  scan_of (by decide +kernel) out

theorem scan_lit53 (n : Nat) (out : List TsTok) :
    scanFrom ⟨.digits n, out⟩ ": { kind: \"eof\" }".toList =
      ⟨.between, out ++ [.num n, .punct ':', .punct '{', .word "kind".toList, .punct ':', .str "eof".toList, .punct '}']⟩ :=
  scan_of rfl out

theorem scan_lit54 (out : List TsTok) :
    scanFrom ⟨.between, out⟩ "export type Production = {\n                name: string;\n                tokens: Array<keyof Tokens>;\n              };\n              \n              ".toList =
      ⟨.between, out ++ [.word "export".toList, .word "type".toList, .word "Production".toList, .punct '=', .punct '{', .newline, .word "name".toList, .punct ':', .word "string".toList, .punct ';', .newline, .word "tokens".toList, .punct ':', .word "Array".toList, .punct '<', .word "keyof".toList, .word "Tokens".toList, .punct '>', .punct ';', .newline, .punct '}', .punct ';', .newline, .newline]⟩ :=
  scan_of (by decide +kernel) out

theorem scan_lit55 (out : List TsTok) :
    scanFrom ⟨.between, out⟩ "export type Productions = {".toList =
      ⟨.between, out ++ [.word "export".toList, .word "type".toList, .word "Productions".toList, .punct '=', .punct '{']⟩ :=
  scan_of (by decide +kernel) out

theorem scan_lit56 (n : Nat) (out : List TsTok) :
    scanFrom ⟨.digits n, out⟩ ": { name: \"".toList =
      ⟨.quoted '"' [], out ++ [.num n, .punct ':', .punct '{', .word "name".toList, .punct ':']⟩ :=
  scan_of rfl out

theorem scan_lit57 (w : Str) (out : List TsTok) :
    scanFrom ⟨.quoted '"' w, out⟩ "\", tokens: [".toList =
      ⟨.between, out ++ [.str w, .punct ',', .word "tokens".toList, .punct ':', .punct '[']⟩ :=
  scan_of rfl out

theorem scan_lit58 (out : List TsTok) :
    scanFrom ⟨.between, out⟩ "] }\n".toList =
      ⟨.between, out ++ [.punct ']', .punct '}', .newline]⟩ :=
  scan_of (by decide +kernel) out

theorem scan_lit59 (out : List TsTok) :
    scanFrom ⟨.between, out⟩ "export type Action = {".toList =
      ⟨.between, out ++ [.word "export".toList, .word "type".toList, .word "Action".toList, .punct '=', .punct '{']⟩ :=
  scan_of (by decide +kernel) out

theorem scan_lit60 (n : Nat) (out : List TsTok) :
    scanFrom ⟨.digits n, out⟩ ": {".toList =
      ⟨.between, out ++ [.num n, .punct ':', .punct '{']⟩ :=
  scan_of rfl out

theorem scan_lit61 (out : List TsTok) :
    scanFrom ⟨.between, out⟩ "shift: ".toList =
      ⟨.between, out ++ [.word "shift".toList, .punct ':']⟩ :=
  scan_of (by decide +kernel) out

theorem scan_lit62 (out : List TsTok) :
    scanFrom ⟨.between, out⟩ "reduce: ".toList =
      ⟨.between, out ++ [.word "reduce".toList, .punct ':']⟩ :=
  scan_of (by decide +kernel) out

theorem scan_lit63 (out : List TsTok) :
    scanFrom ⟨.between, out⟩ "accept: true".toList =
      ⟨.word "true".toList, out ++ [.word "accept".toList, .punct ':']⟩ :=
  scan_of (by decide +kernel) out

theorem scan_lit64 (n : Nat) (out : List TsTok) :
    scanFrom ⟨.digits n, out⟩ "\n}\n".toList =
      ⟨.between, out ++ [.num n, .newline, .punct '}', .newline]⟩ :=
  scan_of rfl out

theorem scan_lit65 (w : Str) (out : List TsTok) :
    scanFrom ⟨.word w, out⟩ "\n}\n".toList =
      ⟨.between, out ++ [.word w, .newline, .punct '}', .newline]⟩ :=
  scan_of rfl out

theorem scan_lit66 (out : List TsTok) :
    scanFrom ⟨.between, out⟩ "\n}\n".toList =
      ⟨.between, out ++ [.newline, .punct '}', .newline]⟩ :=
  scan_of (by decide +kernel) out

theorem scan_lit67 (out : List TsTok) :
    scanFrom ⟨.between, out⟩ "export type Goto = {".toList =
      ⟨.between, out ++ [.word "export".toList, .word "type".toList, .word "Goto".toList, .punct '=', .punct '{']⟩ :=
  scan_of (by decide +kernel) out

theorem scan_lit68 (w : Str) (out : List TsTok) :
    scanFrom ⟨.word w, out⟩ ": ".toList =
      ⟨.between, out ++ [.word w, .punct ':']⟩ :=
  scan_of rfl out

theorem scan_lit69 (n : Nat) (out : List TsTok) :
    scanFrom ⟨.digits n, out⟩ "\n".toList =
      ⟨.between, out ++ [.num n, .newline]⟩ :=
  scan_of rfl out

theorem scan_lit70 (out : List TsTok) :
    scanFrom ⟨.between, out⟩ "export type TokenKindToIdx = {".toList =
      ⟨.between, out ++ [.word "export".toList, .word "type".toList, .word "TokenKindToIdx".toList, .punct '=', .punct '{']⟩ :=
  scan_of (by decide +kernel) out

theorem scan_lit71 (out : List TsTok) :
    scanFrom ⟨.between, out⟩ "'".toList =
      ⟨.quoted '\'' [], out ++ []⟩ :=
  scan_of (by decide +kernel) out

theorem scan_lit72 (w : Str) (out : List TsTok) :
    scanFrom ⟨.quoted '\'' w, out⟩ "': ".toList =
      ⟨.between, out ++ [.str w, .punct ':']⟩ :=
  scan_of rfl out

theorem scan_lit73 (out : List TsTok) :
    scanFrom ⟨.between, out⟩ "__".toList =
      ⟨.word "__".toList, out ++ []⟩ :=
  scan_of (by decide +kernel) out

theorem scan_lit74 (w : Str) (out : List TsTok) :
    scanFrom ⟨.word w, out⟩ " extends { kind : \"".toList =
      ⟨.quoted '"' [], out ++ [.word w, .word "extends".toList, .punct '{', .word "kind".toList, .punct ':']⟩ :=
  scan_of rfl out

theorem scan_lit75 (w : Str) (out : List TsTok) :
    scanFrom ⟨.quoted '"' w, out⟩ "\", value: infer ".toList =
      ⟨.between, out ++ [.str w, .punct ',', .word "value".toList, .punct ':', .word "infer".toList]⟩ :=
  scan_of rfl out

theorem scan_lit76 (w : Str) (out : List TsTok) :
    scanFrom ⟨.word w, out⟩ " extends ".toList =
      ⟨.between, out ++ [.word w, .word "extends".toList]⟩ :=
  scan_of rfl out

theorem scan_lit77 (w : Str) (out : List TsTok) :
    scanFrom ⟨.word w, out⟩ " extends { kind: \"token\", token: L.Token }".toList =
      ⟨.between, out ++ [.word w, .word "extends".toList, .punct '{', .word "kind".toList, .punct ':', .str "token".toList, .punct ',', .word "token".toList, .punct ':', .word "L".toList, .punct '.', .word "Token".toList, .punct '}']⟩ := by
  have e : " extends { kind: \"token\", token: L.Token }".toList = " ".toList ++ "extends { kind: \"token\", token: L.Token }".toList := by decide +kernel
  have h : scanFrom ⟨.word w, out⟩ " ".toList = ⟨.between, out ++ [.word w]⟩ := rfl
  rw [e, scanFrom_append, h, scan_of (m' := .between) (toks := [.word "extends".toList, .punct '{', .word "kind".toList, .punct ':', .str "token".toList, .punct ',', .word "token".toList, .punct ':', .word "L".toList, .punct '.', .word "Token".toList, .punct '}']) (by decide +kernel), List.append_assoc]
  rfl

theorem scan_lit78 (w : Str) (out : List TsTok) :
    scanFrom ⟨.word w, out⟩ "['token']['value'] extends infer ".toList =
      ⟨.between, out ++ [.word w, .punct '[', .str "token".toList, .punct ']', .punct '[', .str "value".toList, .punct ']', .word "extends".toList, .word "infer".toList]⟩ :=
  scan_of rfl out

theorem scan_lit79 (w : Str) (out : List TsTok) :
    scanFrom ⟨.word w, out⟩ " extends '".toList =
      ⟨.quoted '\'' [], out ++ [.word w, .word "extends".toList]⟩ :=
  scan_of rfl out

theorem scan_lit80 (w : Str) (out : List TsTok) :
    scanFrom ⟨.quoted '\'' w, out⟩ "'".toList =
      ⟨.between, out ++ [.str w]⟩ :=
  scan_of rfl out

theorem scan_lit81 (w : Str) (out : List TsTok) :
    scanFrom ⟨.word w, out⟩ " extendsstring".toList =
      ⟨.word "extendsstring".toList, out ++ [.word w]⟩ :=
  scan_of rfl out

/-- Rewrites with all of these. -/
macro "scan_lits" : tactic => `(tactic| simp only [scanFrom_append, List.append_assoc, List.cons_append, List.nil_append, List.append_nil, scan_digits,
  scan_word_digits, scan_lit0, scan_lit1, scan_lit2, scan_lit3, scan_lit4, scan_lit5, scan_lit6, scan_lit7,
  scan_lit8, scan_lit9, scan_lit10, scan_lit11, scan_lit12, scan_lit13, scan_lit14, scan_lit15, scan_lit16,
  scan_lit17, scan_lit18, scan_lit19, scan_lit20, scan_lit21, scan_lit22, scan_lit23, scan_lit24, scan_lit25,
  scan_lit26, scan_lit27, scan_lit28, scan_lit29, scan_lit30, scan_lit31, scan_lit32, scan_lit33, scan_lit34,
  scan_lit35, scan_lit36, scan_lit37, scan_lit38, scan_lit39, scan_lit40, scan_lit41, scan_lit42, scan_lit43,
  scan_lit44, scan_lit45, scan_lit46, scan_lit47, scan_lit48, scan_lit49, scan_lit50, scan_lit51, scan_lit52,
  scan_lit53, scan_lit54, scan_lit55, scan_lit56, scan_lit57, scan_lit58, scan_lit59, scan_lit60, scan_lit61,
  scan_lit62, scan_lit63, scan_lit64, scan_lit65, scan_lit66, scan_lit67, scan_lit68, scan_lit69, scan_lit70,
  scan_lit71, scan_lit72, scan_lit73, scan_lit74, scan_lit75, scan_lit76, scan_lit77, scan_lit78, scan_lit79,
  scan_lit80, scan_lit81])

end Verif.Spec
