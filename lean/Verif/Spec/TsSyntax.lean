import Verif.Model.MiniTs

/-! # A parser for type declarations of TypeScript

Reads alias declarations with type parameters and the type expressions of
`Verif.MiniTs`.  Used to check that the expressions in `Verif.Model.TsFiles` are what
ts/util.ts, ts/lex.ts and ts/parse.ts say. -/

namespace Verif.Spec.TsSyntax
open Verif MiniTs

/-- Words of the text. -/
inductive Word where
  | id (s : Str)
  | num (n : Nat)
  | str (s : Str)
  | punct (c : Char)
  /-- the beginning of a template literal -/
  | tick
  /-- text in a template literal -/
  | chunk (s : Str)
  /-- `${` -/
  | hole
  /-- the `}` of a hole -/
  | holeEnd
  /-- the end of a template literal -/
  | tock
deriving DecidableEq, Repr

/-- What the scanner is inside of; the texts are reversed. -/
inductive Mode where
  | between
  | word (s : Str)
  | num (n : Nat)
  | str (q : Char) (s : Str)
  | strEsc (q : Char) (s : Str)
  | slash
  | line
  | block
  | blockStar
  | tmpl (s : Str)
  | tmplEsc (s : Str)
  | tmplDollar (s : Str)
  | bad
deriving DecidableEq, Repr

/-- Words so far, last first; mode; for every open hole the number of braces open in it. -/
structure Scan where
  out : List Word
  mode : Mode
  holes : List Nat
deriving DecidableEq, Repr

def isAlpha (c : Char) : Bool :=
  (decide (97 ≤ c.toNat) && decide (c.toNat ≤ 122)) || (decide (65 ≤ c.toNat) && decide (c.toNat ≤ 90)) || c == '_' || c == '$'

def isNum (c : Char) : Bool := decide (48 ≤ c.toNat) && decide (c.toNat ≤ 57)

def isBlank (c : Char) : Bool := c == ' ' || c == '\n' || c == '\t' || c == '\r'

/-- The character after a backslash; `none` for escapes of more than one character. -/
def unescape (c : Char) : Option Char :=
  if c = 'n' then some '\n'
  else if c = 't' then some '\t'
  else if c = 'r' then some '\r'
  else if c ∈ "bfvxu0123456789\n\r".toList then none
  else some c

/-- A character between words. -/
def between (out : List Word) (holes : List Nat) (c : Char) : Scan :=
  if isBlank c then ⟨out, .between, holes⟩
  else if isAlpha c then ⟨out, .word [c], holes⟩
  else if isNum c then ⟨out, .num (c.toNat - 48), holes⟩
  else if c = '"' ∨ c = '\'' then ⟨out, .str c [], holes⟩
  else if c = '/' then ⟨out, .slash, holes⟩
  else if c = '`' then ⟨.tick :: out, .tmpl [], holes⟩
  else if c = '{' then
    match holes with
    | [] => ⟨.punct c :: out, .between, []⟩
    | d :: ds => ⟨.punct c :: out, .between, (d + 1) :: ds⟩
  else if c = '}' then
    match holes with
    | [] => ⟨.punct c :: out, .between, []⟩
    | 0 :: ds => ⟨.holeEnd :: out, .tmpl [], ds⟩
    | (d + 1) :: ds => ⟨.punct c :: out, .between, d :: ds⟩
  else ⟨.punct c :: out, .between, holes⟩

/-- One character. -/
def scanStep (s : Scan) (c : Char) : Scan :=
  match s.mode with
  | .between => between s.out s.holes c
  | .word w =>
    if isAlpha c || isNum c || c == '.' then { s with mode := .word (c :: w) }
    else between (.id w.reverse :: s.out) s.holes c
  | .num n => if isNum c then { s with mode := .num (10 * n + (c.toNat - 48)) } else between (.num n :: s.out) s.holes c
  | .str q w =>
    if c = q then ⟨.str w.reverse :: s.out, .between, s.holes⟩
    else if c = '\\' then { s with mode := .strEsc q w }
    else if c = '\n' ∨ c = '\r' then { s with mode := .bad }
    else { s with mode := .str q (c :: w) }
  | .strEsc q w =>
    match unescape c with
    | some d => { s with mode := .str q (d :: w) }
    | none => { s with mode := .bad }
  | .slash => if c = '/' then { s with mode := .line } else if c = '*' then { s with mode := .block } else { s with mode := .bad }
  | .line => if c = '\n' then { s with mode := .between } else s
  | .block => if c = '*' then { s with mode := .blockStar } else s
  | .blockStar =>
    if c = '/' then { s with mode := .between } else if c = '*' then s else { s with mode := .block }
  | .tmpl w =>
    if c = '`' then ⟨.tock :: .chunk w.reverse :: s.out, .between, s.holes⟩
    else if c = '\\' then { s with mode := .tmplEsc w }
    else if c = '$' then { s with mode := .tmplDollar w }
    else { s with mode := .tmpl (c :: w) }
  | .tmplEsc w =>
    match unescape c with
    | some d => { s with mode := .tmpl (d :: w) }
    | none => { s with mode := .bad }
  | .tmplDollar w =>
    if c = '{' then ⟨.hole :: .chunk w.reverse :: s.out, .between, 0 :: s.holes⟩ else { s with mode := .bad }
  | .bad => s

/-- The words of a text. -/
def scan (text : Str) : Option (List Word) :=
  let s := text.foldl scanStep ⟨[], .between, []⟩
  match s.mode, s.holes with
  | .between, [] => some s.out.reverse
  | .word w, [] => some (.id w.reverse :: s.out).reverse
  | .num n, [] => some (.num n :: s.out).reverse
  | .line, [] => some s.out.reverse
  | _, _ => none

/-- Names with a fixed meaning. -/
def keyword (s : Str) : Option Exp :=
  if s = "never".toList then some (.lit .never)
  else if s = "any".toList then some (.lit .any)
  else if s = "undefined".toList then some (.lit .undef)
  else if s = "string".toList then some (.lit .string)
  else if s = "number".toList then some (.lit .number)
  else if s = "boolean".toList then some (.union (.cons .elem (.lit (.bool true)) (.cons .elem (.lit (.bool false)) .nil)))
  else if s = "true".toList then some (.lit (.bool true))
  else if s = "false".toList then some (.lit (.bool false))
  else none

/-- `Array<t>` is `t[]`. -/
def apply (s : Str) : Exps → Exp
  | .cons .elem t .nil => if s = "Array".toList then .arr t else .ref s (.cons .elem t .nil)
  | es => .ref s es

mutual
/-- `u` or `u extends u ? t : t`. -/
def type : Nat → List Word → Option (Exp × List Word)
  | 0, _ => none
  | n + 1, ws => do
    let (c, ws) ← unionType n ws
    match ws with
    | .id w :: ws' =>
      if w = "extends".toList then do
        let (e, ws) ← unionType n ws'
        match ws with
        | .punct '?' :: ws => do
          let (t, ws) ← type n ws
          match ws with
          | .punct ':' :: ws => do
            let (f, ws) ← type n ws
            return (.cond c e t f, ws)
          | _ => none
        | _ => none
      else return (c, ws)
    | _ => return (c, ws)
/-- `p | ... | p`, with an optional first bar. -/
def unionType : Nat → List Word → Option (Exp × List Word)
  | 0, _ => none
  | n + 1, ws => do
    let ws := match ws with | .punct '|' :: ws => ws | ws => ws
    let (t, ws) ← prefixType n ws
    let (ts, ws) ← unionRest n ws
    match ts with
    | .nil => return (t, ws)
    | ts => return (.union (.cons .elem t ts), ws)
def unionRest : Nat → List Word → Option (Exps × List Word)
  | 0, _ => none
  | n + 1, ws =>
    match ws with
    | .punct '|' :: ws => do
      let (t, ws) ← prefixType n ws
      let (ts, ws) ← unionRest n ws
      return (.cons .elem t ts, ws)
    | ws => some (.nil, ws)
/-- `keyof p`, `infer x`, `infer x extends u`, or a type with indices. -/
def prefixType : Nat → List Word → Option (Exp × List Word)
  | 0, _ => none
  | n + 1, ws =>
    match ws with
    | .id w :: ws' =>
      if w = "keyof".toList then do
        let (t, ws) ← prefixType n ws'
        return (.keyof t, ws)
      else if w = "infer".toList then
        match ws' with
        | .id x :: .id w :: ws =>
          if w = "extends".toList then do
            let (c, ws) ← unionType n ws
            return (.inferExt x c, ws)
          else some (.infer x, .id w :: ws)
        | .id x :: ws => some (.infer x, ws)
        | _ => none
      else do
        let (t, ws) ← primary n ws
        indices n t ws
    | ws => do
      let (t, ws) ← primary n ws
      indices n t ws
/-- `t[]` and `t[k]`. -/
def indices : Nat → Exp → List Word → Option (Exp × List Word)
  | 0, _, _ => none
  | n + 1, t, ws =>
    match ws with
    | .punct '[' :: .punct ']' :: ws => indices n (.arr t) ws
    | .punct '[' :: ws => do
      let (k, ws) ← type n ws
      match ws with
      | .punct ']' :: ws => indices n (.idx t k) ws
      | _ => none
    | ws => some (t, ws)
def primary : Nat → List Word → Option (Exp × List Word)
  | 0, _ => none
  | n + 1, ws =>
    match ws with
    | .str s :: ws => some (.lit (.str s), ws)
    | .num k :: ws => some (.lit (.num k), ws)
    | .tick :: ws => do
      let (ps, ws) ← parts n ws
      match ps with
      | .nil => return (.lit (.str []), ws)
      | .cons .elem (.lit (.str s)) .nil => return (.lit (.str s), ws)
      | ps => return (.tmpl ps, ws)
    | .punct '[' :: ws => do
      let (es, ws) ← elems n ws
      return (.tup es, ws)
    | .punct '{' :: ws => do
      let (ms, ws) ← members n ws
      return (.obj ms, ws)
    | .id s :: .punct '<' :: ws => do
      let (es, ws) ← args n ws
      return (apply s es, ws)
    | .id s :: ws => some ((keyword s).getD (.ref s .nil), ws)
    | _ => none
/-- The parts of a template literal. -/
def parts : Nat → List Word → Option (Exps × List Word)
  | 0, _ => none
  | n + 1, ws =>
    match ws with
    | .chunk s :: ws => do
      let (ps, ws) ← parts n ws
      match s with
      | [] => return (ps, ws)
      | s => return (.cons .elem (.lit (.str s)) ps, ws)
    | .hole :: ws => do
      let (t, ws) ← type n ws
      match ws with
      | .holeEnd :: ws => do
        let (ps, ws) ← parts n ws
        return (.cons .elem t ps, ws)
      | _ => none
    | .tock :: ws => some (.nil, ws)
    | _ => none
/-- The elements of a tuple, with optional names, up to `]`. -/
def elems : Nat → List Word → Option (Exps × List Word)
  | 0, _ => none
  | n + 1, ws =>
    match ws with
    | .punct ']' :: ws => some (.nil, ws)
    | .punct ',' :: ws => elems n ws
    | .punct '.' :: .punct '.' :: .punct '.' :: ws => do
      let (t, ws) ← type n ws
      let (ts, ws) ← elems n ws
      return (.cons .spread t ts, ws)
    | .id _ :: .punct ':' :: ws => do
      let (t, ws) ← type n ws
      let (ts, ws) ← elems n ws
      return (.cons .elem t ts, ws)
    | ws => do
      let (t, ws) ← type n ws
      let (ts, ws) ← elems n ws
      return (.cons .elem t ts, ws)
/-- The members of an object type, up to `}`. -/
def members : Nat → List Word → Option (Exps × List Word)
  | 0, _ => none
  | n + 1, ws =>
    match ws with
    | .punct '}' :: ws => some (.nil, ws)
    | .punct ';' :: ws => members n ws
    | .punct ',' :: ws => members n ws
    | .id s :: .punct '?' :: .punct ':' :: ws => do
      let (t, ws) ← type n ws
      let (ts, ws) ← members n ws
      return (.cons (.member (.str s) true) t ts, ws)
    | .id s :: .punct ':' :: ws => do
      let (t, ws) ← type n ws
      let (ts, ws) ← members n ws
      return (.cons (.member (.str s) false) t ts, ws)
    | .str s :: .punct ':' :: ws => do
      let (t, ws) ← type n ws
      let (ts, ws) ← members n ws
      return (.cons (.member (.str s) false) t ts, ws)
    | .num k :: .punct ':' :: ws => do
      let (t, ws) ← type n ws
      let (ts, ws) ← members n ws
      return (.cons (.member (.num k) false) t ts, ws)
    | _ => none
/-- Arguments, up to `>`. -/
def args : Nat → List Word → Option (Exps × List Word)
  | 0, _ => none
  | n + 1, ws =>
    match ws with
    | .punct '>' :: ws => some (.nil, ws)
    | .punct ',' :: ws => args n ws
    | ws => do
      let (t, ws) ← type n ws
      let (ts, ws) ← args n ws
      return (.cons .elem t ts, ws)
end

/-- Type parameters, up to `>`; constraints and defaults are left out. -/
def params : Nat → List Word → Option (List Str × List Word)
  | 0, _ => none
  | n + 1, ws =>
    match ws with
    | .punct '>' :: ws => some ([], ws)
    | .punct ',' :: ws => params n ws
    | .id x :: ws => do
      let ws ← match ws with
        | .id w :: ws => if w = "extends".toList then (unionType n ws).map (·.2) else none
        | ws => some ws
      let ws ← match ws with
        | .punct '=' :: ws => (unionType n ws).map (·.2)
        | ws => some ws
      let (xs, ws) ← params n ws
      return (x :: xs, ws)
    | _ => none

/-- The rest of an import. -/
def skipImport : List Word → List Word
  | [] => []
  | .str _ :: ws => ws
  | _ :: ws => skipImport ws

/-- The declarations of a file. -/
def decls : Nat → List Word → Option (List (Str × List Str × Exp))
  | 0, _ => none
  | n + 1, ws =>
    match ws with
    | [] => some []
    | .punct ';' :: ws => decls n ws
    | .id w :: ws =>
      if w = "import".toList then decls n (skipImport ws)
      else if w = "export".toList then decls n ws
      else if w = "type".toList then
        match ws with
        | .id x :: ws => do
          let (ps, ws) ← match ws with
            | .punct '<' :: ws => params n ws
            | ws => some ([], ws)
          match ws with
          | .punct '=' :: ws => do
            let (t, ws) ← type n ws
            let ds ← decls n ws
            return ((x, ps, t) :: ds)
          | _ => none
        | _ => none
      else none
    | _ => none

/-- The declarations of a text. -/
def file (text : Str) : Option (List (Str × List Str × Exp)) :=
  (scan text).bind fun ws => decls (2 * ws.length + 2) ws

end Verif.Spec.TsSyntax
