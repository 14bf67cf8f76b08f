import Verif.Model.LexGen

/-! # src/codegen/lex_gen.rs: the text of the generated lexer tables -/

namespace Verif.LexGen

/-- Decimal digits, `Display` of the unsigned integers (used at
src/codegen/lex_gen.rs:102-163 and src/codegen/parse_gen.rs:200-292). -/
def digits (n : Nat) : Str :=
  if n < 10 then [Char.ofNat (48 + n)] else digits (n / 10) ++ [Char.ofNat (48 + n % 10)]
termination_by n

/-- `join` (src/codegen/lex_gen.rs:136,137,151,160). -/
def join (sep : Str) : List Str → Str
  | [] => []
  | [s] => s
  | s :: t :: ss => s ++ sep ++ join sep (t :: ss)

/-- `Display` of `bool` and the `if` of src/codegen/lex_gen.rs:104. -/
def boolText (b : Bool) : Str := if b then "true".toList else "false".toList

/-- src/codegen/lex_gen.rs:85-92. -/
def headerText : Str :=
  "/**\n            * These are generated DFA states for the lexer.\n            * Don't edit this file.\n            */\n            \n            ".toList

/-- One `TokenDef` (src/codegen/lex_gen.rs:94-106). -/
def tokenDefText (e : Nat × Str × Bool) : Str :=
  "type TokenDef".toList ++ digits e.1 ++ " = {\n                    kind: \"".toList ++ e.2.1 ++
    "\",\n                    hasValue: ".toList ++ boolText e.2.2 ++ "\n                }\n                \n                ".toList

/-- One member of `Tokens` (src/codegen/lex_gen.rs:109-111). -/
def tokensMemberText (e : Nat × Str × Bool) : Str :=
  "  ".toList ++ digits e.1 ++ ": TokenDef".toList ++ digits e.1 ++ ";".toList

/-- A label (src/codegen/lex_gen.rs:121-125). -/
def labelText (l : Nat × Nat) : Str :=
  "{ from: ".toList ++ digits l.1 ++ ", to: ".toList ++ digits l.2 ++ " }".toList

/-- One `State` (src/codegen/lex_gen.rs:114-140). -/
def stateText (p : State × Nat) : Str :=
  "type State".toList ++ digits p.2 ++ " = {\n                    to: [".toList ++ join ",".toList (p.1.to.map digits) ++
    "],\n                    labels: [".toList ++ join ",".toList (p.1.labels.map labelText) ++
    "],\n                    accepting: ".toList ++ boolText p.1.accepting ++
    "\n                }\n                \n                ".toList

/-- A name in `States` (src/codegen/lex_gen.rs:142-147). -/
def stateName (i : Nat) : Str := "State".toList ++ digits i

/-- One member of `DFAtoNFA` (src/codegen/lex_gen.rs:154-169). -/
def dfaMemberText (e : Nat × List Nat) : Str :=
  digits e.1 ++ ": [ ".toList ++ join ", ".toList (e.2.map digits) ++ " ],\n".toList

/-- `Ctx::to_string` (src/codegen/lex_gen.rs:82-177). -/
def Tables.text (t : Tables) : Str :=
  headerText ++ t.tokens.flatMap tokenDefText ++
    "export type Tokens = {\n".toList ++ t.tokens.flatMap tokensMemberText ++ "\n}\n\n".toList ++
    t.states.zipIdx.flatMap stateText ++
    "export type States = [".toList ++ join ", ".toList ((List.range t.states.length).map stateName) ++ "];\n\n".toList ++
    "export type DFAtoNFA = {\n  ".toList ++ t.dfaToNfa.flatMap dfaMemberText ++ "}".toList

/-- `char_escape` (src/codegen/lex_gen.rs:294-301). -/
def charEscape (c : Char) : Str :=
  if c = '"' then "\\\"".toList
  else if c = '\\' then "\\\\".toList
  else if c = '\n' then "\\n".toList
  else [c]

/-- One member of `Characters` (src/codegen/lex_gen.rs:303-306). -/
def charactersMember (e : Nat × Nat) : Str :=
  "\n    ".toList ++ digits e.2 ++ ": \"".toList ++ charEscape (Char.ofNat e.1) ++ "\",\n".toList

/-- One member of `CharTable` (src/codegen/lex_gen.rs:310-317). -/
def charTableMember (e : Nat × Nat) : Str :=
  "\n\"".toList ++ charEscape (Char.ofNat e.1) ++ "\": ".toList ++ digits e.2 ++ ",".toList

/-- `chars_to_string` (src/codegen/lex_gen.rs:291-321). -/
def charsText (m : List (Nat × Nat)) : Str :=
  "export type Characters = {".toList ++ m.flatMap charactersMember ++ "}".toList ++
    "\n export type CharTable = {".toList ++ m.flatMap charTableMember ++ "}".toList

/-- One member of `SuccTable` (src/codegen/lex_gen.rs:325-327). -/
def succMember (i : Nat) : Str := "    ".toList ++ digits i ++ ": ".toList ++ digits (i + 1) ++ ";\n".toList

/-- One member of `PredTable` (src/codegen/lex_gen.rs:331-334). -/
def predMember (i : Nat) : Str := "    ".toList ++ digits (i + 1) ++ ": ".toList ++ digits i ++ ";\n".toList

/-- `gen_arithmetic` (src/codegen/lex_gen.rs:323-336).  Simplification: the numbers it prints on
the way (332) are left out. -/
def arithText (max : Nat) : Str :=
  "export type SuccTable = {\n".toList ++ (List.range max).flatMap succMember ++ "\n}\n\n".toList ++
    "export type PredTable = {\n".toList ++ (List.range max).flatMap predMember ++ "\n}\n".toList

end Verif.LexGen
