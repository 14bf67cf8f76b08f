import Verif.Proofs.TsScanOk

/-! # The fixed texts of the generated files, scanned as TypeScript (generated list) -/

namespace Verif.Spec.TsSyntax
open Verif

theorem lit0 (out : List Word) : scanFrom (at_ out .between) "/**\n            * These are generated DFA states for the lexer.\n            * Don't edit this file.\n            */\n            \n            ".toList =
    at_ (out ++ []) .between :=
  scan_of (by decide +kernel) out

theorem lit1 (out : List Word) : scanFrom (at_ out .between) "type TokenDef".toList =
    at_ (out ++ [.id "type".toList]) (wd "TokenDef".toList) :=
  scan_of (by decide +kernel) out

theorem lit2 (w : Str) (out : List Word) : scanFrom (at_ out (wd w)) " = {\n                    kind: \"".toList =
    at_ (out ++ [.id w, .punct '=', .punct '{', .id "kind".toList, .punct ':']) (qt '"' []) :=
  scan_wd_of (c := ' ') (t := "= {\n                    kind: \"".toList) (by decide) (by decide +kernel) w out

theorem lit3 (w : Str) (out : List Word) : scanFrom (at_ out (qt '"' w)) "\",\n                    hasValue: ".toList =
    at_ (out ++ [.str w, .punct ',', .id "hasValue".toList, .punct ':']) .between :=
  scan_qt_of (q := '"') (t := ",\n                    hasValue: ".toList) (by decide +kernel) w out

theorem lit4 (out : List Word) : scanFrom (at_ out .between) "true".toList =
    at_ (out ++ []) (wd "true".toList) :=
  scan_of (by decide +kernel) out

theorem lit5 (out : List Word) : scanFrom (at_ out .between) "false".toList =
    at_ (out ++ []) (wd "false".toList) :=
  scan_of (by decide +kernel) out

theorem lit6 (w : Str) (out : List Word) : scanFrom (at_ out (wd w)) "\n                }\n                \n                ".toList =
    at_ (out ++ [.id w, .punct '}']) .between :=
  scan_wd_of (c := '\n') (t := "                }\n                \n                ".toList) (by decide) (by decide +kernel) w out

theorem lit7 (out : List Word) : scanFrom (at_ out .between) "export type Tokens = {\n".toList =
    at_ (out ++ [.id "export".toList, .id "type".toList, .id "Tokens".toList, .punct '=', .punct '{']) .between :=
  scan_of (by decide +kernel) out

theorem lit8 (out : List Word) : scanFrom (at_ out .between) "  ".toList =
    at_ (out ++ []) .between :=
  scan_of (by decide +kernel) out

theorem lit9 (n : Nat) (out : List Word) : scanFrom (at_ out (.num n)) ": TokenDef".toList =
    at_ (out ++ [.num n, .punct ':']) (wd "TokenDef".toList) :=
  scan_num_of (c := ':') (t := " TokenDef".toList) (by decide) (by decide +kernel) n out

theorem lit10 (w : Str) (out : List Word) : scanFrom (at_ out (wd w)) ";".toList =
    at_ (out ++ [.id w, .punct ';']) .between :=
  scan_wd_of (c := ';') (t := []) (by decide) (by decide +kernel) w out

theorem lit11 (out : List Word) : scanFrom (at_ out .between) "\n}\n\n".toList =
    at_ (out ++ [.punct '}']) .between :=
  scan_of (by decide +kernel) out

theorem lit12 (out : List Word) : scanFrom (at_ out .between) "{ from: ".toList =
    at_ (out ++ [.punct '{', .id "from".toList, .punct ':']) .between :=
  scan_of (by decide +kernel) out

theorem lit13 (n : Nat) (out : List Word) : scanFrom (at_ out (.num n)) ", to: ".toList =
    at_ (out ++ [.num n, .punct ',', .id "to".toList, .punct ':']) .between :=
  scan_num_of (c := ',') (t := " to: ".toList) (by decide) (by decide +kernel) n out

theorem lit14 (n : Nat) (out : List Word) : scanFrom (at_ out (.num n)) " }".toList =
    at_ (out ++ [.num n, .punct '}']) .between :=
  scan_num_of (c := ' ') (t := "}".toList) (by decide) (by decide +kernel) n out

theorem lit15 (out : List Word) : scanFrom (at_ out .between) "type State".toList =
    at_ (out ++ [.id "type".toList]) (wd "State".toList) :=
  scan_of (by decide +kernel) out

theorem lit16 (w : Str) (out : List Word) : scanFrom (at_ out (wd w)) " = {\n                    to: [".toList =
    at_ (out ++ [.id w, .punct '=', .punct '{', .id "to".toList, .punct ':', .punct '[']) .between :=
  scan_wd_of (c := ' ') (t := "= {\n                    to: [".toList) (by decide) (by decide +kernel) w out

theorem lit17 (out : List Word) : scanFrom (at_ out .between) "],\n                    labels: [".toList =
    at_ (out ++ [.punct ']', .punct ',', .id "labels".toList, .punct ':', .punct '[']) .between :=
  scan_of (by decide +kernel) out

theorem lit18 (n : Nat) (out : List Word) : scanFrom (at_ out (.num n)) "],\n                    labels: [".toList =
    at_ (out ++ [.num n, .punct ']', .punct ',', .id "labels".toList, .punct ':', .punct '[']) .between :=
  scan_num_of (c := ']') (t := ",\n                    labels: [".toList) (by decide) (by decide +kernel) n out

theorem lit19 (n : Nat) (out : List Word) : scanFrom (at_ out (.num n)) ",".toList =
    at_ (out ++ [.num n, .punct ',']) .between :=
  scan_num_of (c := ',') (t := []) (by decide) (by decide +kernel) n out

theorem lit20 (out : List Word) : scanFrom (at_ out .between) ",".toList =
    at_ (out ++ [.punct ',']) .between :=
  scan_of (by decide +kernel) out

theorem lit21 (out : List Word) : scanFrom (at_ out .between) "],\n                    accepting: ".toList =
    at_ (out ++ [.punct ']', .punct ',', .id "accepting".toList, .punct ':']) .between :=
  scan_of (by decide +kernel) out

theorem lit22 (out : List Word) : scanFrom (at_ out .between) "State".toList =
    at_ (out ++ []) (wd "State".toList) :=
  scan_of (by decide +kernel) out

theorem lit23 (out : List Word) : scanFrom (at_ out .between) "export type States = [".toList =
    at_ (out ++ [.id "export".toList, .id "type".toList, .id "States".toList, .punct '=', .punct '[']) .between :=
  scan_of (by decide +kernel) out

theorem lit24 (w : Str) (out : List Word) : scanFrom (at_ out (wd w)) ", ".toList =
    at_ (out ++ [.id w, .punct ',']) .between :=
  scan_wd_of (c := ',') (t := " ".toList) (by decide) (by decide +kernel) w out

theorem lit25 (n : Nat) (out : List Word) : scanFrom (at_ out (.num n)) ", ".toList =
    at_ (out ++ [.num n, .punct ',']) .between :=
  scan_num_of (c := ',') (t := " ".toList) (by decide) (by decide +kernel) n out

theorem lit26 (out : List Word) : scanFrom (at_ out .between) "];\n\n".toList =
    at_ (out ++ [.punct ']', .punct ';']) .between :=
  scan_of (by decide +kernel) out

theorem lit27 (w : Str) (out : List Word) : scanFrom (at_ out (wd w)) "];\n\n".toList =
    at_ (out ++ [.id w, .punct ']', .punct ';']) .between :=
  scan_wd_of (c := ']') (t := ";\n\n".toList) (by decide) (by decide +kernel) w out

theorem lit28 (out : List Word) : scanFrom (at_ out .between) "export type DFAtoNFA = {\n  ".toList =
    at_ (out ++ [.id "export".toList, .id "type".toList, .id "DFAtoNFA".toList, .punct '=', .punct '{']) .between :=
  scan_of (by decide +kernel) out

theorem lit29 (n : Nat) (out : List Word) : scanFrom (at_ out (.num n)) ": [ ".toList =
    at_ (out ++ [.num n, .punct ':', .punct '[']) .between :=
  scan_num_of (c := ':') (t := " [ ".toList) (by decide) (by decide +kernel) n out

theorem lit30 (out : List Word) : scanFrom (at_ out .between) " ],\n".toList =
    at_ (out ++ [.punct ']', .punct ',']) .between :=
  scan_of (by decide +kernel) out

theorem lit31 (n : Nat) (out : List Word) : scanFrom (at_ out (.num n)) " ],\n".toList =
    at_ (out ++ [.num n, .punct ']', .punct ',']) .between :=
  scan_num_of (c := ' ') (t := "],\n".toList) (by decide) (by decide +kernel) n out

theorem lit32 (out : List Word) : scanFrom (at_ out .between) "}".toList =
    at_ (out ++ [.punct '}']) .between :=
  scan_of (by decide +kernel) out

theorem lit33 (out : List Word) : scanFrom (at_ out .between) "export type Characters = {".toList =
    at_ (out ++ [.id "export".toList, .id "type".toList, .id "Characters".toList, .punct '=', .punct '{']) .between :=
  scan_of (by decide +kernel) out

theorem lit34 (out : List Word) : scanFrom (at_ out .between) "\n    ".toList =
    at_ (out ++ []) .between :=
  scan_of (by decide +kernel) out

theorem lit35 (n : Nat) (out : List Word) : scanFrom (at_ out (.num n)) ": \"".toList =
    at_ (out ++ [.num n, .punct ':']) (qt '"' []) :=
  scan_num_of (c := ':') (t := " \"".toList) (by decide) (by decide +kernel) n out

theorem lit36 (w : Str) (out : List Word) : scanFrom (at_ out (qt '"' w)) "\",\n".toList =
    at_ (out ++ [.str w, .punct ',']) .between :=
  scan_qt_of (q := '"') (t := ",\n".toList) (by decide +kernel) w out

theorem lit37 (out : List Word) : scanFrom (at_ out .between) "\n export type CharTable = {".toList =
    at_ (out ++ [.id "export".toList, .id "type".toList, .id "CharTable".toList, .punct '=', .punct '{']) .between :=
  scan_of (by decide +kernel) out

theorem lit38 (out : List Word) : scanFrom (at_ out .between) "\n\"".toList =
    at_ (out ++ []) (qt '"' []) :=
  scan_of (by decide +kernel) out

theorem lit39 (w : Str) (out : List Word) : scanFrom (at_ out (qt '"' w)) "\": ".toList =
    at_ (out ++ [.str w, .punct ':']) .between :=
  scan_qt_of (q := '"') (t := ": ".toList) (by decide +kernel) w out

theorem lit40 (out : List Word) : scanFrom (at_ out .between) "export type SuccTable = {\n".toList =
    at_ (out ++ [.id "export".toList, .id "type".toList, .id "SuccTable".toList, .punct '=', .punct '{']) .between :=
  scan_of (by decide +kernel) out

theorem lit41 (out : List Word) : scanFrom (at_ out .between) "    ".toList =
    at_ (out ++ []) .between :=
  scan_of (by decide +kernel) out

theorem lit42 (n : Nat) (out : List Word) : scanFrom (at_ out (.num n)) ": ".toList =
    at_ (out ++ [.num n, .punct ':']) .between :=
  scan_num_of (c := ':') (t := " ".toList) (by decide) (by decide +kernel) n out

theorem lit43 (n : Nat) (out : List Word) : scanFrom (at_ out (.num n)) ";\n".toList =
    at_ (out ++ [.num n, .punct ';']) .between :=
  scan_num_of (c := ';') (t := "\n".toList) (by decide) (by decide +kernel) n out

theorem lit44 (out : List Word) : scanFrom (at_ out .between) "export type PredTable = {\n".toList =
    at_ (out ++ [.id "export".toList, .id "type".toList, .id "PredTable".toList, .punct '=', .punct '{']) .between :=
  scan_of (by decide +kernel) out

theorem lit45 (out : List Word) : scanFrom (at_ out .between) "export declare module type_defs {\n".toList =
    at_ (out ++ [.id "export".toList, .id "declare".toList, .id "module".toList, .id "type_defs".toList, .punct '{']) .between :=
  scan_of (by decide +kernel) out

theorem lit46 (out : List Word) : scanFrom (at_ out .between) "export type Symbol = { kind: \"token\", token: L.Token }".toList =
    at_ (out ++ [.id "export".toList, .id "type".toList, .id "Symbol".toList, .punct '=', .punct '{', .id "kind".toList, .punct ':', .str "token".toList, .punct ',', .id "token".toList, .punct ':', .id "L.Token".toList, .punct '}']) .between :=
  scan_of (by decide +kernel) out

theorem lit47 (out : List Word) : scanFrom (at_ out .between) "| { kind: \"".toList =
    at_ (out ++ [.punct '|', .punct '{', .id "kind".toList, .punct ':']) (qt '"' []) :=
  scan_of (by decide +kernel) out

theorem lit48 (w : Str) (out : List Word) : scanFrom (at_ out (qt '"' w)) "\", value: actions.".toList =
    at_ (out ++ [.str w, .punct ',', .id "value".toList, .punct ':']) (wd "actions.".toList) :=
  scan_qt_of (q := '"') (t := ", value: actions.".toList) (by decide +kernel) w out

theorem lit49 (w : Str) (out : List Word) : scanFrom (at_ out (wd w)) " }".toList =
    at_ (out ++ [.id w, .punct '}']) .between :=
  scan_wd_of (c := ' ') (t := "}".toList) (by decide) (by decide +kernel) w out

theorem lit50 (out : List Word) : scanFrom (at_ out .between) "\n\n".toList =
    at_ (out ++ []) .between :=
  scan_of (by decide +kernel) out

theorem lit51 (out : List Word) : scanFrom (at_ out .between) "export type Tokens = {".toList =
    at_ (out ++ [.id "export".toList, .id "type".toList, .id "Tokens".toList, .punct '=', .punct '{']) .between :=
  scan_of (by decide +kernel) out

theorem lit52 (out : List Word) : scanFrom (at_ out .between) "\n                ".toList =
    at_ (out ++ []) .between :=
  scan_of (by decide +kernel) out

theorem lit53 (n : Nat) (out : List Word) : scanFrom (at_ out (.num n)) ": { kind: \"".toList =
    at_ (out ++ [.num n, .punct ':', .punct '{', .id "kind".toList, .punct ':']) (qt '"' []) :=
  scan_num_of (c := ':') (t := " { kind: \"".toList) (by decide) (by decide +kernel) n out

theorem lit54 (w : Str) (out : List Word) : scanFrom (at_ out (qt '"' w)) "\", value: \"".toList =
    at_ (out ++ [.str w, .punct ',', .id "value".toList, .punct ':']) (qt '"' []) :=
  scan_qt_of (q := '"') (t := ", value: \"".toList) (by decide +kernel) w out

theorem lit55 (w : Str) (out : List Word) : scanFrom (at_ out (qt '"' w)) "\" }".toList =
    at_ (out ++ [.str w, .punct '}']) .between :=
  scan_qt_of (q := '"') (t := " }".toList) (by decide +kernel) w out

theorem lit56 (out : List Word) : scanFrom (at_ out .between) "\n".toList =
    at_ (out ++ []) .between :=
  scan_of (by decide +kernel) out

theorem lit57 (n : Nat) (out : List Word) : scanFrom (at_ out (.num n)) ": { kind: \"eof\" }".toList =
    at_ (out ++ [.num n, .punct ':', .punct '{', .id "kind".toList, .punct ':', .str "eof".toList, .punct '}']) .between :=
  scan_num_of (c := ':') (t := " { kind: \"eof\" }".toList) (by decide) (by decide +kernel) n out

theorem lit58 (out : List Word) : scanFrom (at_ out .between) "export type Productions = {".toList =
    at_ (out ++ [.id "export".toList, .id "type".toList, .id "Productions".toList, .punct '=', .punct '{']) .between :=
  scan_of (by decide +kernel) out

theorem lit59 (n : Nat) (out : List Word) : scanFrom (at_ out (.num n)) ": { name: \"".toList =
    at_ (out ++ [.num n, .punct ':', .punct '{', .id "name".toList, .punct ':']) (qt '"' []) :=
  scan_num_of (c := ':') (t := " { name: \"".toList) (by decide) (by decide +kernel) n out

theorem lit60 (w : Str) (out : List Word) : scanFrom (at_ out (qt '"' w)) "\", tokens: [".toList =
    at_ (out ++ [.str w, .punct ',', .id "tokens".toList, .punct ':', .punct '[']) .between :=
  scan_qt_of (q := '"') (t := ", tokens: [".toList) (by decide +kernel) w out

theorem lit61 (out : List Word) : scanFrom (at_ out .between) "] }\n".toList =
    at_ (out ++ [.punct ']', .punct '}']) .between :=
  scan_of (by decide +kernel) out

theorem lit62 (out : List Word) : scanFrom (at_ out .between) "export type Action = {".toList =
    at_ (out ++ [.id "export".toList, .id "type".toList, .id "Action".toList, .punct '=', .punct '{']) .between :=
  scan_of (by decide +kernel) out

theorem lit63 (n : Nat) (out : List Word) : scanFrom (at_ out (.num n)) ": {".toList =
    at_ (out ++ [.num n, .punct ':', .punct '{']) .between :=
  scan_num_of (c := ':') (t := " {".toList) (by decide) (by decide +kernel) n out

theorem lit64 (out : List Word) : scanFrom (at_ out .between) "shift: ".toList =
    at_ (out ++ [.id "shift".toList, .punct ':']) .between :=
  scan_of (by decide +kernel) out

theorem lit65 (out : List Word) : scanFrom (at_ out .between) "reduce: ".toList =
    at_ (out ++ [.id "reduce".toList, .punct ':']) .between :=
  scan_of (by decide +kernel) out

theorem lit66 (out : List Word) : scanFrom (at_ out .between) "accept: true".toList =
    at_ (out ++ [.id "accept".toList, .punct ':']) (wd "true".toList) :=
  scan_of (by decide +kernel) out

theorem lit67 (n : Nat) (out : List Word) : scanFrom (at_ out (.num n)) "\n}\n".toList =
    at_ (out ++ [.num n, .punct '}']) .between :=
  scan_num_of (c := '\n') (t := "}\n".toList) (by decide) (by decide +kernel) n out

theorem lit68 (w : Str) (out : List Word) : scanFrom (at_ out (wd w)) "\n}\n".toList =
    at_ (out ++ [.id w, .punct '}']) .between :=
  scan_wd_of (c := '\n') (t := "}\n".toList) (by decide) (by decide +kernel) w out

theorem lit69 (out : List Word) : scanFrom (at_ out .between) "\n}\n".toList =
    at_ (out ++ [.punct '}']) .between :=
  scan_of (by decide +kernel) out

theorem lit70 (out : List Word) : scanFrom (at_ out .between) "export type Goto = {".toList =
    at_ (out ++ [.id "export".toList, .id "type".toList, .id "Goto".toList, .punct '=', .punct '{']) .between :=
  scan_of (by decide +kernel) out

theorem lit71 (w : Str) (out : List Word) : scanFrom (at_ out (wd w)) ": ".toList =
    at_ (out ++ [.id w, .punct ':']) .between :=
  scan_wd_of (c := ':') (t := " ".toList) (by decide) (by decide +kernel) w out

theorem lit72 (n : Nat) (out : List Word) : scanFrom (at_ out (.num n)) "\n".toList =
    at_ (out ++ [.num n]) .between :=
  scan_num_of (c := '\n') (t := []) (by decide) (by decide +kernel) n out

theorem lit73 (out : List Word) : scanFrom (at_ out .between) "export type TokenKindToIdx = {".toList =
    at_ (out ++ [.id "export".toList, .id "type".toList, .id "TokenKindToIdx".toList, .punct '=', .punct '{']) .between :=
  scan_of (by decide +kernel) out

theorem lit74 (out : List Word) : scanFrom (at_ out .between) "'".toList =
    at_ (out ++ []) (qt '\'' []) :=
  scan_of (by decide +kernel) out

theorem lit75 (w : Str) (out : List Word) : scanFrom (at_ out (qt '\'' w)) "': ".toList =
    at_ (out ++ [.str w, .punct ':']) .between :=
  scan_qt_of (q := '\'') (t := ": ".toList) (by decide +kernel) w out

theorem lit76 (out : List Word) : scanFrom (at_ out .between) "import * as U from \"./util\"\nimport * as L from \"./lex\"\n\n".toList =
    at_ (out ++ [.id "import".toList, .punct '*', .id "as".toList, .id "U".toList, .id "from".toList, .str "./util".toList, .id "import".toList, .punct '*', .id "as".toList, .id "L".toList, .id "from".toList, .str "./lex".toList]) .between :=
  scan_of (by decide +kernel) out

theorem lit77 (out : List Word) : scanFrom (at_ out .between) "export declare module actions {\n".toList =
    at_ (out ++ [.id "export".toList, .id "declare".toList, .id "module".toList, .id "actions".toList, .punct '{']) .between :=
  scan_of (by decide +kernel) out

theorem lit78 (out : List Word) : scanFrom (at_ out .between) "type ".toList =
    at_ (out ++ [.id "type".toList]) .between :=
  scan_of (by decide +kernel) out

theorem lit79 (w : Str) (out : List Word) : scanFrom (at_ out (wd w)) " = ".toList =
    at_ (out ++ [.id w, .punct '=']) .between :=
  scan_wd_of (c := ' ') (t := "= ".toList) (by decide) (by decide +kernel) w out

theorem lit80 (out : List Word) : scanFrom (at_ out .between) "\ntype EmitProduction<prodIdx extends number, symbolStack extends type_defs.Symbol[]> = ".toList =
    at_ (out ++ [.id "type".toList, .id "EmitProduction".toList, .punct '<', .id "prodIdx".toList, .id "extends".toList, .id "number".toList, .punct ',', .id "symbolStack".toList, .id "extends".toList, .id "type_defs.Symbol".toList, .punct '[', .punct ']', .punct '>', .punct '=']) .between :=
  scan_of (by decide +kernel) out

theorem lit81 (out : List Word) : scanFrom (at_ out .between) "prodIdx extends ".toList =
    at_ (out ++ [.id "prodIdx".toList, .id "extends".toList]) .between :=
  scan_of (by decide +kernel) out

theorem lit82 (n : Nat) (out : List Word) : scanFrom (at_ out (.num n)) " ? actions.Action".toList =
    at_ (out ++ [.num n, .punct '?']) (wd "actions.Action".toList) :=
  scan_num_of (c := ' ') (t := "? actions.Action".toList) (by decide) (by decide +kernel) n out

theorem lit83 (w : Str) (out : List Word) : scanFrom (at_ out (wd w)) "<symbolStack> :".toList =
    at_ (out ++ [.id w, .punct '<', .id "symbolStack".toList, .punct '>', .punct ':']) .between :=
  scan_wd_of (c := '<') (t := "symbolStack> :".toList) (by decide) (by decide +kernel) w out

theorem lit84 (out : List Word) : scanFrom (at_ out .between) "`error: invalid production idx: ${prodIdx}`;\n".toList =
    at_ (out ++ [.tick, .chunk "error: invalid production idx: ".toList, .hole, .id "prodIdx".toList, .holeEnd, .chunk [], .tock, .punct ';']) .between :=
  scan_of (by decide +kernel) out

theorem lit85 (out : List Word) : scanFrom (at_ out .between) "type Action".toList =
    at_ (out ++ [.id "type".toList]) (wd "Action".toList) :=
  scan_of (by decide +kernel) out

theorem lit86 (w : Str) (out : List Word) : scanFrom (at_ out (wd w)) "<symbolStack extends type_defs.Symbol[]> = U.PopNStackWithValue<symbolStack, ".toList =
    at_ (out ++ [.id w, .punct '<', .id "symbolStack".toList, .id "extends".toList, .id "type_defs.Symbol".toList, .punct '[', .punct ']', .punct '>', .punct '=', .id "U.PopNStackWithValue".toList, .punct '<', .id "symbolStack".toList, .punct ',']) .between :=
  scan_wd_of (c := '<') (t := "symbolStack extends type_defs.Symbol[]> = U.PopNStackWithValue<symbolStack, ".toList) (by decide) (by decide +kernel) w out

theorem lit87 (n : Nat) (out : List Word) : scanFrom (at_ out (.num n)) "> extends [infer newStack, infer poppedValues] ? poppedValues extends [".toList =
    at_ (out ++ [.num n, .punct '>', .id "extends".toList, .punct '[', .id "infer".toList, .id "newStack".toList, .punct ',', .id "infer".toList, .id "poppedValues".toList, .punct ']', .punct '?', .id "poppedValues".toList, .id "extends".toList, .punct '[']) .between :=
  scan_num_of (c := '>') (t := " extends [infer newStack, infer poppedValues] ? poppedValues extends [".toList) (by decide) (by decide +kernel) n out

theorem lit88 (out : List Word) : scanFrom (at_ out .between) "infer __".toList =
    at_ (out ++ [.id "infer".toList]) (wd "__".toList) :=
  scan_of (by decide +kernel) out

theorem lit89 (w : Str) (out : List Word) : scanFrom (at_ out (wd w)) ",".toList =
    at_ (out ++ [.id w, .punct ',']) .between :=
  scan_wd_of (c := ',') (t := []) (by decide) (by decide +kernel) w out

theorem lit90 (out : List Word) : scanFrom (at_ out .between) "infer var".toList =
    at_ (out ++ [.id "infer".toList]) (wd "var".toList) :=
  scan_of (by decide +kernel) out

theorem lit91 (out : List Word) : scanFrom (at_ out .between) "] ? newStack extends type_defs.Symbol[] ? ".toList =
    at_ (out ++ [.punct ']', .punct '?', .id "newStack".toList, .id "extends".toList, .id "type_defs.Symbol".toList, .punct '[', .punct ']', .punct '?']) .between :=
  scan_of (by decide +kernel) out

theorem lit92 (out : List Word) : scanFrom (at_ out .between) "__".toList =
    at_ (out ++ []) (wd "__".toList) :=
  scan_of (by decide +kernel) out

theorem lit93 (w : Str) (out : List Word) : scanFrom (at_ out (wd w)) " extends { kind : \"".toList =
    at_ (out ++ [.id w, .id "extends".toList, .punct '{', .id "kind".toList, .punct ':']) (qt '"' []) :=
  scan_wd_of (c := ' ') (t := "extends { kind : \"".toList) (by decide) (by decide +kernel) w out

theorem lit94 (w : Str) (out : List Word) : scanFrom (at_ out (qt '"' w)) "\", value: infer ".toList =
    at_ (out ++ [.str w, .punct ',', .id "value".toList, .punct ':', .id "infer".toList]) .between :=
  scan_qt_of (q := '"') (t := ", value: infer ".toList) (by decide +kernel) w out

theorem lit95 (w : Str) (out : List Word) : scanFrom (at_ out (wd w)) " extends ".toList =
    at_ (out ++ [.id w, .id "extends".toList]) .between :=
  scan_wd_of (c := ' ') (t := "extends ".toList) (by decide) (by decide +kernel) w out

theorem lit96 (w : Str) (out : List Word) : scanFrom (at_ out (wd w)) " extends { kind: \"token\", token: L.Token }".toList =
    at_ (out ++ [.id w, .id "extends".toList, .punct '{', .id "kind".toList, .punct ':', .str "token".toList, .punct ',', .id "token".toList, .punct ':', .id "L.Token".toList, .punct '}']) .between :=
  scan_wd_of (c := ' ') (t := "extends { kind: \"token\", token: L.Token }".toList) (by decide) (by decide +kernel) w out

theorem lit97 (w : Str) (out : List Word) : scanFrom (at_ out (wd w)) "['token']['value'] extends infer ".toList =
    at_ (out ++ [.id w, .punct '[', .str "token".toList, .punct ']', .punct '[', .str "value".toList, .punct ']', .id "extends".toList, .id "infer".toList]) .between :=
  scan_wd_of (c := '[') (t := "'token']['value'] extends infer ".toList) (by decide) (by decide +kernel) w out

theorem lit98 (w : Str) (out : List Word) : scanFrom (at_ out (wd w)) " extends '".toList =
    at_ (out ++ [.id w, .id "extends".toList]) (qt '\'' []) :=
  scan_wd_of (c := ' ') (t := "extends '".toList) (by decide) (by decide +kernel) w out

theorem lit99 (w : Str) (out : List Word) : scanFrom (at_ out (qt '\'' w)) "'".toList =
    at_ (out ++ [.str w]) .between :=
  scan_qt_of (q := '\'') (t := []) (by decide +kernel) w out

theorem lit100 (out : List Word) : scanFrom (at_ out .between) " ? ".toList =
    at_ (out ++ [.punct '?']) .between :=
  scan_of (by decide +kernel) out

theorem lit101 (out : List Word) : scanFrom (at_ out .between) " : ".toList =
    at_ (out ++ [.punct ':']) .between :=
  scan_of (by decide +kernel) out

theorem lit102 (out : List Word) : scanFrom (at_ out .between) "[{ kind: '".toList =
    at_ (out ++ [.punct '[', .punct '{', .id "kind".toList, .punct ':']) (qt '\'' []) :=
  scan_of (by decide +kernel) out

theorem lit103 (w : Str) (out : List Word) : scanFrom (at_ out (qt '\'' w)) "', value: ".toList =
    at_ (out ++ [.str w, .punct ',', .id "value".toList, .punct ':']) .between :=
  scan_qt_of (q := '\'') (t := ", value: ".toList) (by decide +kernel) w out

theorem lit104 (out : List Word) : scanFrom (at_ out .between) " },...newStack]".toList =
    at_ (out ++ [.punct '}', .punct ',', .punct '.', .punct '.', .punct '.', .id "newStack".toList, .punct ']']) .between :=
  scan_of (by decide +kernel) out

theorem lit105 (out : List Word) : scanFrom (at_ out .between) "\"error: invalid symbol (pos `".toList =
    at_ (out ++ []) (qt '"' "error: invalid symbol (pos `".toList) :=
  scan_of (by decide +kernel) out

theorem lit106 (out : List Word) : scanFrom (at_ out .between) "`error: invalid symbol (pos \\`".toList =
    at_ (out ++ [.tick]) (tm "error: invalid symbol (pos `".toList) :=
  scan_of (by decide +kernel) out

theorem lit107 (out : List Word) : scanFrom (at_ out .between) "`error: not a token (pos \\`".toList =
    at_ (out ++ [.tick]) (tm "error: not a token (pos `".toList) :=
  scan_of (by decide +kernel) out

theorem lit108 (out : List Word) : scanFrom (at_ out .between) " : `unreachable: \\`newStack\\` should always be a type_defs.Symbol[] (Action".toList =
    at_ (out ++ [.punct ':', .tick]) (tm "unreachable: `newStack` should always be a type_defs.Symbol[] (Action".toList) :=
  scan_of (by decide +kernel) out

theorem lit109 (out : List Word) : scanFrom (at_ out .between) " : `error: popping off symbol Stack Action".toList =
    at_ (out ++ [.punct ':', .tick]) (tm "error: popping off symbol Stack Action".toList) :=
  scan_of (by decide +kernel) out

theorem lit110 (out : List Word) : scanFrom (at_ out .between) " : 'unreachable: inferring popped values never fails'".toList =
    at_ (out ++ [.punct ':', .str "unreachable: inferring popped values never fails".toList]) .between :=
  scan_of (by decide +kernel) out

theorem lit_tick (w : Str) (out : List Word) : scanFrom (at_ out (tm w)) "\\`, Action".toList =
    at_ out (tm (w ++ "`, Action".toList)) := by
  have e : "\\`, Action".toList = "\\`".toList ++ ", Action".toList := by decide +kernel
  have e' : "`, Action".toList = ['`'] ++ ", Action".toList := by decide +kernel
  rw [e, scanFrom_append, scan_tm_tick, scan_tmpl _ _ _ (by decide +kernel), e', List.append_assoc]

theorem lit_close (w : Str) (out : List Word) : scanFrom (at_ out (tm w)) ")`".toList =
    at_ (out ++ [.chunk (w ++ ")".toList), .tock]) .between := by
  have e : ")`".toList = ")".toList ++ ['`'] := by decide +kernel
  rw [e, scanFrom_append, scan_tmpl _ _ _ (by decide +kernel), scan_tm]
  rfl

theorem lit_back (w : Str) (out : List Word) : scanFrom (at_ out (tm w)) "`".toList = at_ (out ++ [.chunk w, .tock]) .between :=
  scan_tm (t := []) out

theorem lit_action (w : Str) (out : List Word) : scanFrom (at_ out (qt '"' w)) "`, Action".toList =
    at_ out (qt '"' (w ++ "`, Action".toList)) :=
  scan_plain2 _ _ _ (by unfold Plain2; decide +kernel)

theorem lit_paren (w : Str) (out : List Word) : scanFrom (at_ out (qt '"' w)) ")\"".toList =
    at_ (out ++ [.str (w ++ ")".toList)]) .between := by
  have e : ")\"".toList = ")".toList ++ ['"'] := by decide +kernel
  rw [e, scanFrom_append, scan_plain2 _ _ _ (by unfold Plain2; decide +kernel), scan_qt]
  rfl

/-- Rewrites with all of these. -/
macro "ts_lits" : tactic => `(tactic| simp only [scanFrom_append, List.append_assoc, List.cons_append, List.nil_append, List.append_nil, scan_digits,
  scan_word_digits, scan_tm_digits, scan_qt_digits, lit_tick, lit_close, lit_back, lit_action, lit_paren, lit0,
  lit1, lit2, lit3, lit4, lit5, lit6, lit7, lit8, lit9, lit10, lit11, lit12, lit13, lit14, lit15, lit16, lit17,
  lit18, lit19, lit20, lit21, lit22, lit23, lit24, lit25, lit26, lit27, lit28, lit29, lit30, lit31, lit32,
  lit33, lit34, lit35, lit36, lit37, lit38, lit39, lit40, lit41, lit42, lit43, lit44, lit45, lit46, lit47,
  lit48, lit49, lit50, lit51, lit52, lit53, lit54, lit55, lit56, lit57, lit58, lit59, lit60, lit61, lit62,
  lit63, lit64, lit65, lit66, lit67, lit68, lit69, lit70, lit71, lit72, lit73, lit74, lit75, lit76, lit77,
  lit78, lit79, lit80, lit81, lit82, lit83, lit84, lit85, lit86, lit87, lit88, lit89, lit90, lit91, lit92,
  lit93, lit94, lit95, lit96, lit97, lit98, lit99, lit100, lit101, lit102, lit103, lit104, lit105, lit106,
  lit107, lit108, lit109, lit110])

end Verif.Spec.TsSyntax
