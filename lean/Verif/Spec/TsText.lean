import Verif.Model.Prelude

/-! # Specification: the words of TypeScript source text

A scanner for the fragment of TypeScript found in the generated files, by the rules
of the language: words, decimal numbers, string literals in single or double quotes
with their escapes, block comments, punctuation.  Line breaks are kept, since they
separate the members of a type literal. -/

namespace Verif.Spec
open Verif

inductive TsTok where
  | num (n : Nat)
  | str (s : Str)
  | word (s : Str)
  | punct (c : Char)
  | newline
deriving DecidableEq, Repr

/-- What the scanner is in the middle of. -/
inductive Scanning where
  | between
  | digits (n : Nat)
  | word (s : Str)
  | quoted (q : Char) (s : Str)
  | escape (q : Char) (s : Str)
  | slash
  | comment
  | star
  | bad
deriving DecidableEq, Repr

structure TsScan where
  mode : Scanning
  out : List TsTok
deriving DecidableEq, Repr

def isDigit (c : Char) : Bool := decide ('0'.toNat ≤ c.toNat ∧ c.toNat ≤ '9'.toNat)

def isWordStart (c : Char) : Bool :=
  decide ('a'.toNat ≤ c.toNat ∧ c.toNat ≤ 'z'.toNat) || decide ('A'.toNat ≤ c.toNat ∧ c.toNat ≤ 'Z'.toNat) || c == '_' ||
    c == '$'

def isWordChar (c : Char) : Bool := isWordStart c || isDigit c

/-- LF, CR, LS, PS. -/
def isBreak (c : Char) : Bool := c == '\n' || c == '\r' || c == '\u2028' || c == '\u2029'

def isPunct (c : Char) : Bool := c ∈ "{}[]()<>:;,=|?.".toList

/-- Value of an escape sequence of one character; `none` for those that take more
(`\x`, `\u`, octal). -/
def escaped (c : Char) : Option Str :=
  if c == 'n' then some ['\n']
  else if c == 't' then some ['\t']
  else if c == 'r' then some ['\r']
  else if c == 'b' then some ['\x08']
  else if c == 'f' then some ['\x0c']
  else if c == 'v' then some ['\x0b']
  else if c == 'x' || c == 'u' || isDigit c then none
  else if isBreak c then some []
  else some [c]

/-- A character between words. -/
def scanBetween (out : List TsTok) (c : Char) : TsScan :=
  if c == ' ' || c == '\t' then ⟨.between, out⟩
  else if isBreak c then ⟨.between, out ++ [.newline]⟩
  else if isDigit c then ⟨.digits (c.toNat - '0'.toNat), out⟩
  else if isWordStart c then ⟨.word [c], out⟩
  else if c == '"' || c == '\'' then ⟨.quoted c [], out⟩
  else if c == '/' then ⟨.slash, out⟩
  else if isPunct c then ⟨.between, out ++ [.punct c]⟩
  else ⟨.bad, out⟩

def scanStep (s : TsScan) (c : Char) : TsScan :=
  match s.mode with
  | .between => scanBetween s.out c
  | .digits n =>
    if isDigit c then (if n = 0 then ⟨.bad, s.out⟩ else ⟨.digits (10 * n + (c.toNat - '0'.toNat)), s.out⟩)
    else if isWordStart c then ⟨.bad, s.out⟩
    else scanBetween (s.out ++ [.num n]) c
  | .word w => if isWordChar c then ⟨.word (w ++ [c]), s.out⟩ else scanBetween (s.out ++ [.word w]) c
  | .quoted q w =>
    if c == q then ⟨.between, s.out ++ [.str w]⟩
    else if c == '\\' then ⟨.escape q w, s.out⟩
    else if isBreak c then ⟨.bad, s.out⟩
    else ⟨.quoted q (w ++ [c]), s.out⟩
  | .escape q w =>
    match escaped c with
    | some e => ⟨.quoted q (w ++ e), s.out⟩
    | none => ⟨.bad, s.out⟩
  | .slash => if c == '*' then ⟨.comment, s.out⟩ else ⟨.bad, s.out⟩
  | .comment => if c == '*' then ⟨.star, s.out⟩ else ⟨.comment, s.out⟩
  | .star => if c == '/' then ⟨.between, s.out⟩ else if c == '*' then ⟨.star, s.out⟩ else ⟨.comment, s.out⟩
  | .bad => s

/-- The words of a text; `none` if it is malformed. -/
def scanText (text : Str) : Option (List TsTok) :=
  let s := text.foldl scanStep ⟨.between, []⟩
  match s.mode with
  | .between => some s.out
  | .digits n => some (s.out ++ [.num n])
  | .word w => some (s.out ++ [.word w])
  | _ => none

/-- A name that reads the same between single and double quotes: no quotes, no
backslashes, no line breaks. -/
def PlainName (s : Str) : Prop := ∀ c ∈ s, c ≠ '"' ∧ c ≠ '\'' ∧ c ≠ '\\' ∧ isBreak c = false

instance (s : Str) : Decidable (PlainName s) := by unfold PlainName; infer_instance

/-- A word by the rules of the scanner. -/
def WordName (s : Str) : Prop := ∃ c w, s = c :: w ∧ isWordStart c = true ∧ ∀ x ∈ w, isWordChar x = true

/-- A name that reads the same between double quotes. -/
def Plain2 (s : Str) : Prop := ∀ c ∈ s, c ≠ '"' ∧ c ≠ '\\' ∧ isBreak c = false

end Verif.Spec
