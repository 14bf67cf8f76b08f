import Verif.Model.GrammarFile
import Verif.Model.Grammar
import Verif.Model.Support

/-! # src/lib.rs, src/parser/grammar.lalrpop: reading a grammar file

`lalrpop` generates the lexer and the parser from src/parser/grammar.lalrpop
(build.rs:3-9).  The lexer is modelled as the loop of `lalrpop_util::lexer::Matcher`
over the terminals of that file, the parser as one function per nonterminal of that
file.  Simplification: `lalrpop` generates an LR(1) automaton; here each function
decides by the next tokens. -/

namespace Verif.FrontEnd

/-- The terminals of src/parser/grammar.lalrpop:11-60; the three regexes (41-42, 47,
51) carry their text. -/
inductive Tok where
  | quoted (s : Str)
  | ident (s : Str)
  | code (s : Str)
  | comma | colon | lt | eq | arrow | gt | lbrack | rbrack | export | r | start
deriving DecidableEq, Repr

/-- Length of the text matched by a literal terminal at the start of the input
(src/parser/grammar.lalrpop:11-60). -/
def litLen (lit : Str) (text : Str) : Option Nat :=
  if lit.isPrefixOf text then some lit.length else none

/-- The rest of a quoted text after the opening quote
(src/parser/grammar.lalrpop:41,42): characters up to and including the closing quote. -/
def quotedRest : Str → Option Nat
  | [] => none
  | '\\' :: '\\' :: s => (quotedRest s).map (· + 2)
  | '\\' :: '"' :: s => (quotedRest s).map (· + 2)
  | '\\' :: _ => none
  | '"' :: _ => some 1
  | _ :: s => (quotedRest s).map (· + 1)

/-- `"(\\\\|\\"|[^"\\])*"` at the start of the input (src/parser/grammar.lalrpop:41,42). -/
def quotedLen : Str → Option Nat
  | '"' :: s => (quotedRest s).map (· + 1)
  | _ => none

/-- `.*\)` at the start of the input (src/parser/grammar.lalrpop:51): up to the last
closing parenthesis of the line. -/
def codeRest : Str → Option Nat
  | [] => none
  | '\n' :: _ => none
  | c :: s =>
    match codeRest s with
    | some n => some (n + 1)
    | none => if c = ')' then some 1 else none

/-- `\(.*\)` at the start of the input (src/parser/grammar.lalrpop:51). -/
def codeLen : Str → Option Nat
  | '(' :: s => (codeRest s).map (· + 1)
  | _ => none

/-- `[_A-Za-z]` (src/parser/grammar.lalrpop:47). -/
def isIdentStart (c : Char) : Bool :=
  c == '_' || (decide (65 ≤ c.toNat) && decide (c.toNat ≤ 90)) || (decide (97 ≤ c.toNat) && decide (c.toNat ≤ 122))

/-- `[_A-Za-z0-9]` (src/parser/grammar.lalrpop:47). -/
def isIdentChar (c : Char) : Bool := isIdentStart c || (decide (48 ≤ c.toNat) && decide (c.toNat ≤ 57))

/-- `[_A-Za-z][_A-Za-z0-9]*` at the start of the input (src/parser/grammar.lalrpop:47). -/
def identLen : Str → Option Nat
  | c :: s => if isIdentStart c then some ((s.takeWhile isIdentChar).length + 1) else none
  | [] => none

/-- `\s`: the code points with the property White_Space, which the generated lexer
skips between tokens (src/parser/grammar.lalrpop:1-63 has no `match` section, so the
default applies). -/
def isSpace (c : Char) : Bool :=
  let n := c.toNat
  (decide (9 ≤ n) && decide (n ≤ 13)) || n == 32 || n == 0x85 || n == 0xA0 || n == 0x1680 ||
    (decide (0x2000 ≤ n) && decide (n ≤ 0x200A)) || n == 0x2028 || n == 0x2029 || n == 0x202F || n == 0x205F || n == 0x3000

/-- `\s*` at the start of the input (see `isSpace`, src/parser/grammar.lalrpop:1-63). -/
def spaceLen (text : Str) : Option Nat := some (text.takeWhile isSpace).length

/-- The terminals in increasing precedence (src/parser/grammar.lalrpop:11-60): regexes,
then literals, then the pattern that is skipped. -/
def patterns : List (Option (Str → Tok) × (Str → Option Nat)) :=
  [(some .quoted, quotedLen), (some .code, codeLen), (some .ident, identLen),
   (some fun _ => .comma, litLen ",".toList), (some fun _ => .colon, litLen ":".toList),
   (some fun _ => .lt, litLen "<".toList), (some fun _ => .eq, litLen "=".toList),
   (some fun _ => .arrow, litLen "=>".toList), (some fun _ => .gt, litLen ">".toList),
   (some fun _ => .lbrack, litLen "[".toList), (some fun _ => .rbrack, litLen "]".toList),
   (some fun _ => .export, litLen "export".toList), (some fun _ => .r, litLen "r".toList),
   (some fun _ => .start, litLen "start".toList), (none, spaceLen)]

/-- The loop of `Matcher::next` over the matching patterns (`lalrpop_util`, for
src/parser/grammar.lalrpop:1-63): the longest match, the last of several. -/
def pick {α : Type} (text : Str) : List (α × (Str → Option Nat)) → Option (α × Nat) → Option (α × Nat)
  | [], best => best
  | p :: ps, best =>
    match p.2 text with
    | none => pick text ps best
    | some n => if (best.map Prod.snd).getD 0 ≤ n then pick text ps (some (p.1, n)) else pick text ps best

/-- `Matcher` (`lalrpop_util`, for src/parser/grammar.lalrpop:1-63) as a list; an invalid
token is an error.  `fuel` bounds the number of tokens and skips. -/
def tokens : Nat → Str → Res (List Tok)
  | fuel, text =>
    if text.isEmpty then .ok []
    else
      match fuel with
      | 0 => .error .outOfFuel
      | fuel + 1 =>
        match pick text patterns none with
        | some (some mk, n) => do
          let ts ← tokens fuel (text.drop n)
          return mk (text.take n) :: ts
        | some (none, n) => if n = 0 then .error .syntaxError else tokens fuel (text.drop n)
        | none => .error .syntaxError

/-- `Symbol` (src/parser/grammar.lalrpop:40-44). -/
def symbol : List Tok → Res (Ast.InSym × List Tok)
  | .quoted s :: r => do
    let s ← Support.allocQuotedStr s
    return (.strLit s, r)
  | .r :: .quoted s :: r => do
    let s ← Support.allocRegex s
    return (.regex s, r)
  | .ident s :: r => .ok (.nonTerm (Support.allocStr s), r)
  | _ => .error .syntaxError

/-- `NamedSymbol` (src/parser/grammar.lalrpop:32-38). -/
def namedSymbol : List Tok → Res (Ast.InSym × List Tok)
  | .lt :: .ident n :: .colon :: r => do
    let (ty, r) ← symbol r
    match r with
    | .gt :: r => return (.named (some (Support.allocStr n)) ty, r)
    | _ => .error .syntaxError
  | r => symbol r

/-- The next token can begin a `NamedSymbol` (src/parser/grammar.lalrpop:32-44). -/
def startsSymbol : List Tok → Bool
  | .lt :: _ => true
  | .quoted _ :: _ => true
  | .r :: _ => true
  | .ident _ :: _ => true
  | _ => false

/-- `NamedSymbol+` (src/parser/grammar.lalrpop:26). -/
def namedSymbols : Nat → List Tok → Res (List Ast.InSym × List Tok)
  | 0, _ => .error .outOfFuel
  | fuel + 1, ts => do
    let (s, r) ← namedSymbol ts
    if startsSymbol r then
      let (ss, r) ← namedSymbols fuel r
      return (s :: ss, r)
    else return ([s], r)

/-- `ProductionBody` (src/parser/grammar.lalrpop:25-30). -/
def body (fuel : Nat) (ts : List Tok) : Res (Ast.Body × List Tok) := do
  let (ss, r) ← namedSymbols fuel ts
  match r with
  | .arrow :: .code c :: r => do
    let c ← Support.allocTsCode c
    return (⟨ss, c⟩, r)
  | _ => .error .syntaxError

/-- `Comma<ProductionBody>` and the `"]"` after it (src/parser/grammar.lalrpop:11,17,
54-63). -/
def bodies : Nat → List Tok → Res (List Ast.Body × List Tok)
  | 0, _ => .error .outOfFuel
  | _ + 1, .rbrack :: r => .ok ([], r)
  | fuel + 1, ts => do
    let (b, r) ← body fuel ts
    match r with
    | .comma :: r => do
      let (bs, r) ← bodies fuel r
      return (b :: bs, r)
    | .rbrack :: r => return ([b], r)
    | _ => .error .syntaxError

/-- `Production` from the name on (src/parser/grammar.lalrpop:11-22). -/
def production (fuel : Nat) (isStart : Bool) : List Tok → Res (Ast.Prod × List Tok)
  | .ident n :: .colon :: .code c :: .eq :: .lbrack :: r => do
    let c ← Support.allocTsCode c
    let (bs, r) ← bodies fuel r
    return (⟨Support.allocStr n, bs, isStart, c⟩, r)
  | _ => .error .syntaxError

/-- `Production` (src/parser/grammar.lalrpop:10-23). -/
def exported (fuel : Nat) : List Tok → Res (Ast.Prod × List Tok)
  | .export :: .start :: r => production fuel true r
  | .export :: r => production fuel false r
  | r => production fuel false r

/-- `Program` (src/parser/grammar.lalrpop:6-8). -/
def program : Nat → List Tok → Res (List Ast.Prod)
  | 0, _ => .error .outOfFuel
  | fuel + 1, ts => do
    let (p, r) ← exported fuel ts
    if r.isEmpty then return [p]
    else
      let ps ← program fuel r
      return p :: ps

/-- `parse_grammar` (src/lib.rs:10-17); the `unwrap` (14) of a syntax error is
`Err.syntaxError`. -/
def parseGrammar (text : Str) : Res (List Ast.Prod) := do
  let ts ← tokens text.length text
  program (ts.length + 1) ts

end Verif.FrontEnd
