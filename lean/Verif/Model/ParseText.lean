import Verif.Model.LexText
import Verif.Model.ParseGen

/-! # src/codegen/parse_gen.rs: the text of the generated parser tables and actions -/

namespace Verif.ParseGen
open Verif.LexGen (digits)

/-- One alternative of `Symbol` (src/codegen/parse_gen.rs:169-171). -/
def symbolText (s : Str) : Str :=
  "| { kind: \"".toList ++ s ++ "\", value: actions.".toList ++ s ++ " }".toList

/-- `generate_symbols` (src/codegen/parse_gen.rs:166-174). -/
def symbolsText (ss : List Str) : Str :=
  "export type Symbol = { kind: \"token\", token: L.Token }".toList ++ ss.flatMap symbolText ++ "\n\n".toList

/-- Kind and value of a token (src/codegen/parse_gen.rs:192-201). -/
def tokenKind : Sym → Option (Str × Str)
  | .strLit s => some ("strlit".toList, s)
  | .nonTerm s => some ("nonterminal".toList, s)
  | .regex s => some ("regex".toList, s)
  | _ => none

/-- One member of `Tokens` (src/codegen/parse_gen.rs:191-208).  Simplification:
`todo!()` for `Epsilon` (196) is in `ParseGen.generate`. -/
def tokenText (p : Sym × Nat) : Str :=
  match tokenKind p.1 with
  | some (k, v) => "\n                ".toList ++ digits p.2 ++ ": { kind: \"".toList ++ k ++ "\", value: \"".toList ++ v ++
      "\" }".toList
  | none => "\n".toList ++ digits p.2 ++ ": { kind: \"eof\" }".toList

/-- `generate_tokens` (src/codegen/parse_gen.rs:176-211). -/
def tokensText (ts : List Sym) : Str :=
  ("\nexport type Token =\n  | { kind: \"strlit\"; value: string }\n  | { kind: \"nonterminal\"; value: string }\n" ++
    "  | { kind: \"regex\"; value: string }\n  | { kind: \"eof\" };\n  \n  ").toList ++
    "export type Tokens = {".toList ++ ts.zipIdx.flatMap tokenText ++ "\n}\n\n".toList

/-- One member of `Productions` (src/codegen/parse_gen.rs:225-239). -/
def productionText (p : (Str × List Nat) × Nat) : Str :=
  digits p.2 ++ ": { name: \"".toList ++ p.1.1 ++ "\", tokens: [".toList ++
    p.1.2.flatMap (fun k => digits k ++ ",".toList) ++ "] }\n".toList

/-- `generate_productions` (src/codegen/parse_gen.rs:213-243), for the contents
`genProductions` of the table. -/
def productionsText (ps : List (Str × List Nat)) : Str :=
  ("export type Production = {\n                name: string;\n                tokens: Array<keyof Tokens>;\n" ++
    "              };\n              \n              ").toList ++
    "export type Productions = {".toList ++ ps.zipIdx.flatMap productionText ++ "\n}\n\n".toList

/-- An action (src/codegen/parse_gen.rs:251-255). -/
def actionText : Action → Str
  | .shift j => "shift: ".toList ++ digits j
  | .reduce r => "reduce: ".toList ++ digits r
  | .accept => "accept: true".toList

/-- One entry of a row of `Action` (src/codegen/parse_gen.rs:249-256). -/
def actionEntryText (e : Nat × Action) : Str :=
  digits e.1 ++ ": {".toList ++ actionText e.2 ++ "\n}\n".toList

/-- One row of `Action` (src/codegen/parse_gen.rs:247-258). -/
def actionRowText (r : Nat × List (Nat × Action)) : Str :=
  digits r.1 ++ ": {".toList ++ r.2.flatMap actionEntryText ++ "\n}\n".toList

/-- `generate_action_table` (src/codegen/parse_gen.rs:245-262). -/
def actionTableText (t : Table Nat Action) : Str :=
  "export type Action = {".toList ++ t.flatMap actionRowText ++ "\n}\n".toList

/-- One entry of a row of `Goto` (src/codegen/parse_gen.rs:268-270). -/
def gotoEntryText (e : Str × Nat) : Str :=
  "\n".toList ++ e.1 ++ ": ".toList ++ digits e.2 ++ "\n".toList

/-- One row of `Goto` (src/codegen/parse_gen.rs:266-272). -/
def gotoRowText (r : Nat × List (Str × Nat)) : Str :=
  digits r.1 ++ ": {".toList ++ r.2.flatMap gotoEntryText ++ "\n}\n".toList

/-- `generate_goto_table` (src/codegen/parse_gen.rs:264-275). -/
def gotoTableText (t : Table Str Nat) : Str :=
  "export type Goto = {".toList ++ t.flatMap gotoRowText ++ "\n}\n".toList

/-- One member of `TokenKindToIdx` (src/codegen/parse_gen.rs:292). -/
def kindText (e : Str × Nat) : Str := "'".toList ++ e.1 ++ "': ".toList ++ digits e.2 ++ "\n".toList

/-- `generate_tokenkind_to_idx` (src/codegen/parse_gen.rs:277-296). -/
def kindsText (ks : List (Str × Nat)) : Str :=
  "export type TokenKindToIdx = {".toList ++ ks.flatMap kindText ++ "\n}\n".toList

/-- `generate_type_defs_module` (src/codegen/parse_gen.rs:147-157); `ts` are the tokens
of the grammar. -/
def Tables.typeDefsText (t : Tables) (ts : List Sym) : Str :=
  "export declare module type_defs {\n".toList ++ symbolsText t.symbols ++ tokensText ts ++ productionsText t.productions ++
    actionTableText t.action ++ gotoTableText t.goto ++ kindsText t.kindToIdx ++ "\n}\n".toList

/-- `generate_imports` (src/codegen/parse_gen.rs:159-164). -/
def importsText : Str := "import * as U from \"./util\"\nimport * as L from \"./lex\"\n\n".toList

/-- The text of a condition (src/codegen/parse_gen.rs:483-519). -/
def Cond.write : Cond → Str
  | .nonTerm n k => "__".toList ++ n ++ " extends { kind : \"".toList ++ k ++ "\", value: infer ".toList ++ n ++
      " extends ".toList ++ k ++ " }".toList
  | .isToken n => "__".toList ++ n ++ " extends { kind: \"token\", token: L.Token }".toList
  | .lit n s => "__".toList ++ n ++ "['token']['value'] extends infer ".toList ++ n ++ " extends '".toList ++ s ++ "'".toList
  | .text n => "__".toList ++ n ++ "['token']['value'] extends infer ".toList ++ n ++ " extendsstring".toList

/-- The text of a message (src/codegen/parse_gen.rs:488-527): in double quotes for a
nonterminal (489), in backquotes for the two of a token (502-509, 520-527). -/
def Msg.write (quoted : Bool) : Msg → Str
  | .invalidSymbol pos act =>
    if quoted then "\"error: invalid symbol (pos `".toList ++ digits pos ++ "`, Action".toList ++ digits act ++ ")\"".toList
    else "`error: invalid symbol (pos \\`".toList ++ digits pos ++ "\\`, Action".toList ++ digits act ++ ")`".toList
  | .notToken pos act =>
    "`error: not a token (pos \\`".toList ++ digits pos ++ "\\`, Action".toList ++ digits act ++ ")`".toList

/-- The quotes of the messages of one input (src/codegen/parse_gen.rs:488-527). -/
def paramQuotes : Param → List Bool
  | .named _ (.nonTerm _) => [true]
  | .named _ (.strLit _) => [false, false]
  | .named _ (.regex _) => [false, false]
  | _ => []

/-- `call_impl` (src/codegen/parse_gen.rs:373-389); what `call_impl_args` (349-371, `callImplArgs`)
writes is dropped. -/
def Act.callText (a : Act) : Str :=
  "[{ kind: '".toList ++ a.name ++ "', value: ".toList ++ a.code ++ " },...newStack]".toList

/-- `validate_params` (src/codegen/parse_gen.rs:465-545). -/
def Act.paramsText (a : Act) : Str :=
  ((validate a).1.flatMap fun c => c.write ++ " ? ".toList) ++ a.callText ++
    (((validate a).2.zip (a.inputs.flatMap paramQuotes)).flatMap fun m => " : ".toList ++ m.1.write m.2)

/-- The names inferred from the popped values (src/codegen/parse_gen.rs:425-438). -/
def inferText : Nat → List Param → Str
  | _, [] => []
  | i, .named n _ :: ps => "infer __".toList ++ n ++ ",".toList ++ inferText i ps
  | i, _ :: ps => "infer var".toList ++ digits i ++ ",".toList ++ inferText (i + 1) ps

/-- `Action::write` with `popped_values` and `write_condition`
(src/codegen/parse_gen.rs:19-30, 391-463). -/
def Act.text (a : Act) : Str :=
  "type Action".toList ++ digits a.idx ++ "<symbolStack extends type_defs.Symbol[]> = U.PopNStackWithValue<symbolStack, ".toList ++
    digits a.inputs.length ++ "> extends [infer newStack, infer poppedValues] ? poppedValues extends [".toList ++
    inferText 0 a.inputs ++ "] ? newStack extends type_defs.Symbol[] ? ".toList ++ a.paramsText ++
    " : `unreachable: \\`newStack\\` should always be a type_defs.Symbol[] (Action".toList ++ digits a.idx ++ ")`".toList ++
    " : `error: popping off symbol Stack Action".toList ++ digits a.idx ++ "`".toList ++
    " : 'unreachable: inferring popped values never fails'".toList

/-- `symbol_variants` (src/codegen/parse_gen.rs:79-90): name and type of each
production, the last one of a name. -/
def variants (ps : List Ast.Prod) : List (Str × Str) := ps.foldl (fun m p => minsert p.name p.tsCode m) []

/-- A type of the module `actions` (src/codegen/parse_gen.rs:303-309). -/
def variantText (v : Str × Str) : Str := "type ".toList ++ v.1 ++ " = ".toList ++ v.2 ++ "\n".toList

/-- A case of `EmitProduction` (src/codegen/parse_gen.rs:316-322). -/
def emitCaseText (a : Act) : Str :=
  "prodIdx extends ".toList ++ digits a.idx ++ " ? actions.Action".toList ++ digits a.idx ++ "<symbolStack> :".toList

/-- `generate_actions_module` (src/codegen/parse_gen.rs:298-344). -/
def actionsModuleText (ps : List Ast.Prod) (acts : List Act) : Str :=
  "export declare module actions {\n".toList ++ (variants ps).flatMap variantText ++
    "\ntype EmitProduction<prodIdx extends number, symbolStack extends type_defs.Symbol[]> = ".toList ++
    acts.flatMap emitCaseText ++ "`error: invalid production idx: ${prodIdx}`;\n".toList ++ "\n".toList ++
    acts.flatMap (fun a => a.text ++ "\n".toList) ++ "\n}\n".toList

/-- `Ctx::generate` (src/codegen/parse_gen.rs:137-145). -/
def fileText (ps : List Ast.Prod) (l : Lalr) (t : Tables) : Str :=
  t.typeDefsText l.grammar.tokens ++ importsText ++ actionsModuleText ps t.acts

end Verif.ParseGen
