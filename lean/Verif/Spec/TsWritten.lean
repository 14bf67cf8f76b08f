import Verif.Spec.TsGenFile
import Verif.Spec.TsText
import Verif.Model.ParseText

/-! # Specification: projects from the texts that are written

When a text is a file of TypeScript, and the conditions under which what the program writes for a
grammar is one. -/

namespace Verif.Spec
open Verif MiniTs

namespace TsProject
open TsSyntax

/-- The text is this file: with enough fuel, the reader reads it as such. -/
def Reads (text : Str) (F : File) : Prop := ∃ ws, TsSyntax.scan text = some ws ∧ ∃ k, ∀ n, k ≤ n → items n ws = some F

/-- The files with these texts. -/
def ReadAs (texts : Mod → Option Str) (files : Mod → File) : Prop :=
  ∀ m, match texts m with
    | some text => Reads text (files m)
    | none => files m = ⟨[], [], []⟩

/-- Names that have a meaning of their own in types, and so can be declared by no one. -/
def reserved : List Str :=
  ["never", "any", "undefined", "string", "number", "boolean", "true", "false", "keyof", "infer", "extends"].map String.toList

/-- The text does not end in a line comment. -/
def Closed (code : Str) : Prop := (code.foldl TsSyntax.scanStep ⟨[], .between, []⟩).mode ≠ .line

end TsProject

/-- The identifiers of the grammar are words and not reserved, terminals have no quotes,
backslashes or line breaks, no regex has a name, and no mapping code ends in a line comment. -/
structure TsWritable (ps : List Ast.Prod) : Prop where
  heads : ∀ p ∈ ps, WordName p.name ∧ p.name ∉ TsProject.reserved
  refs : ∀ p ∈ ps, ∀ b ∈ p.bodies, ∀ s ∈ b.inputs, ∀ n, s.lower = .nonTerm n → WordName n ∧ n ∉ TsProject.reserved
  terms : ∀ p ∈ ps, ∀ b ∈ p.bodies, ∀ s ∈ b.inputs, IsTerm s.lower → PlainName (spelling s.lower)
  params : ∀ p ∈ ps, ∀ b ∈ p.bodies, ∀ n ∈ names b.inputs, WordName n
  regexes : ∀ p ∈ ps, ∀ b ∈ p.bodies, ∀ n r, Ast.InSym.named n (.regex r) ∉ b.inputs
  closed : ∀ p ∈ ps, ∀ b ∈ p.bodies, TsProject.Closed b.mapping

end Verif.Spec
