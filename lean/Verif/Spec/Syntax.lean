import Verif.Model.FrontEnd
import Verif.Spec.Source

/-! # Specification: the language of grammar files

The terminals as regexes, their cutting by longest match, and the grammar of
src/parser/grammar.lalrpop, rule by rule. -/

namespace Verif.Spec
open Verif FrontEnd

/-- The regex of a literal text. -/
def literal (s : String) : Hir := .concat (s.toList.map fun c => .lit c.toNat)

/-- The terminals: the regexes first, then the literals, which take precedence. -/
def terminals : List ((Str → Tok) × Hir) :=
  [(.quoted, GrammarFile.quoted), (.code, GrammarFile.tsCode), (.ident, GrammarFile.ident),
   (fun _ => .comma, literal ","), (fun _ => .colon, literal ":"), (fun _ => .lt, literal "<"),
   (fun _ => .eq, literal "="), (fun _ => .arrow, literal "=>"), (fun _ => .gt, literal ">"),
   (fun _ => .lbrack, literal "["), (fun _ => .rbrack, literal "]"), (fun _ => .export, literal "export"),
   (fun _ => .r, literal "r"), (fun _ => .start, literal "start")]

/-- Unicode white space. -/
def White (c : Char) : Prop :=
  c.toNat ∈ [9, 10, 11, 12, 13, 0x20, 0x85, 0xA0, 0x1680, 0x2000, 0x2001, 0x2002, 0x2003, 0x2004, 0x2005, 0x2006,
    0x2007, 0x2008, 0x2009, 0x200A, 0x2028, 0x2029, 0x202F, 0x205F, 0x3000]

/-- `w` is the longest prefix of `w ++ rest` that some terminal matches, and terminal
number `i` is the one of highest precedence that matches it. -/
structure Longest (i : Nat) (w rest : Str) : Prop where
  hit : ∃ t, terminals[i]? = some t ∧ Matches t.2 w
  longest : ∀ t ∈ terminals, ∀ v r, w ++ rest = v ++ r → Matches t.2 v → v.length ≤ w.length
  best : ∀ (j : Nat) t, i < j → terminals[j]? = some t → ¬ Matches t.2 w

/-- Cutting a text into tokens: white space is skipped, otherwise the longest match
is taken. -/
inductive Cut : Str → List Tok → Prop
  | nil : Cut [] []
  | space {c s ts} : White c → Cut s ts → Cut (c :: s) ts
  | token {i w rest ts mk h} : Longest i w rest → terminals[i]? = some (mk, h) → Cut rest ts →
      Cut (w ++ rest) (mk w :: ts)

/-- `Symbol`. -/
inductive IsSymbol : List Tok → Ast.InSym → Prop
  | lit {t} : IsSymbol [.quoted ('"' :: (t ++ ['"']))] (.strLit t)
  | regex {t} : IsSymbol [.r, .quoted ('"' :: (t ++ ['"']))] (.regex t)
  | nonTerm {n} : IsSymbol [.ident n] (.nonTerm n)

/-- `NamedSymbol`. -/
inductive IsNamed : List Tok → Ast.InSym → Prop
  | named {n ts s} : IsSymbol ts s → IsNamed (.lt :: .ident n :: .colon :: (ts ++ [.gt])) (.named (some n) s)
  | plain {ts s} : IsSymbol ts s → IsNamed ts s

/-- `NamedSymbol+`. -/
inductive AreNamed : List Tok → List Ast.InSym → Prop
  | one {ts s} : IsNamed ts s → AreNamed ts [s]
  | cons {ts ts' s ss} : IsNamed ts s → AreNamed ts' ss → AreNamed (ts ++ ts') (s :: ss)

/-- `ProductionBody`. -/
inductive IsBody : List Tok → Ast.Body → Prop
  | mk {ts ss c} : AreNamed ts ss → IsBody (ts ++ [.arrow, .code ('(' :: (c ++ [')']))]) ⟨ss, c⟩

/-- `Comma<ProductionBody>`. -/
inductive AreBodies : List Tok → List Ast.Body → Prop
  | nil : AreBodies [] []
  | last {ts b} : IsBody ts b → AreBodies ts [b]
  | cons {ts ts' b bs} : IsBody ts b → AreBodies ts' bs → AreBodies (ts ++ .comma :: ts') (b :: bs)

/-- `Production`. -/
inductive IsProd : List Tok → Ast.Prod → Prop
  | bare {n c ts bs} : AreBodies ts bs →
      IsProd (.ident n :: .colon :: .code ('(' :: (c ++ [')'])) :: .eq :: .lbrack :: (ts ++ [.rbrack])) ⟨n, bs, false, c⟩
  | exported {n c ts bs} : AreBodies ts bs →
      IsProd (.export :: .ident n :: .colon :: .code ('(' :: (c ++ [')'])) :: .eq :: .lbrack :: (ts ++ [.rbrack]))
        ⟨n, bs, false, c⟩
  | start {n c ts bs} : AreBodies ts bs →
      IsProd (.export :: .start :: .ident n :: .colon :: .code ('(' :: (c ++ [')'])) :: .eq :: .lbrack :: (ts ++ [.rbrack]))
        ⟨n, bs, true, c⟩

/-- `Program`. -/
inductive IsProgram : List Tok → List Ast.Prod → Prop
  | one {ts p} : IsProd ts p → IsProgram ts [p]
  | cons {ts ts' p ps} : IsProd ts p → IsProgram ts' ps → IsProgram (ts ++ ts') (p :: ps)

/-- A name that can be written in a grammar file. -/
def IdentName (n : Str) : Prop :=
  Matches GrammarFile.ident n ∧ n ≠ "export".toList ∧ n ≠ "start".toList ∧ n ≠ "r".toList

/-- A symbol that can be written without a name. -/
inductive PlainSym : Ast.InSym → Prop
  | lit {t} : Quotable t → PlainSym (.strLit t)
  | regex {t} : Quotable t → PlainSym (.regex t)
  | nonTerm {n} : IdentName n → PlainSym (.nonTerm n)

/-- A symbol that can be written. -/
inductive WritableSym : Ast.InSym → Prop
  | plain {s} : PlainSym s → WritableSym s
  | named {n s} : IdentName n → PlainSym s → WritableSym (.named (some n) s)

/-- The grammars that can be written: at least one production; names are identifiers
other than the three keywords; no body is empty; code has no line break. -/
structure Writable (ps : List Ast.Prod) : Prop where
  some : ps ≠ []
  name : ∀ p ∈ ps, IdentName p.name
  type : ∀ p ∈ ps, '\n' ∉ p.tsCode
  inputs : ∀ p ∈ ps, ∀ b ∈ p.bodies, b.inputs ≠ [] ∧ ∀ s ∈ b.inputs, WritableSym s
  mapping : ∀ p ∈ ps, ∀ b ∈ p.bodies, '\n' ∉ b.mapping

end Verif.Spec
