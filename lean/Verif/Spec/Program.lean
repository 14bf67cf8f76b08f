import Verif.Spec.Syntax
import Verif.Spec.Regex
import Verif.Spec.Cfg
import Verif.Spec.Lr

/-! # When the program writes files, and why it stops otherwise -/

namespace Verif.Spec
open Verif FrontEnd

/-- `r` is written as a regex in the grammar. -/
def HasRegex (ps : List Ast.Prod) (r : Str) : Prop := ∃ p ∈ ps, ∃ b ∈ p.bodies, ∃ s ∈ b.inputs, s.lower = .regex r

/-- Every regex of the grammar can be parsed, and contains only what is implemented. -/
def RegexesOk (rx : Str → Option Hir) (ps : List Ast.Prod) : Prop :=
  ∀ r, HasRegex ps r → ∃ h, rx r = some h ∧ ¬ Unsupported h

/-- The text is the grammar `ps` with start production `start`. -/
def ReadsGrammar (text : Str) (ps : List Ast.Prod) (start : Ast.Prod) : Prop :=
  (∃ ts, Cut text ts ∧ IsProgram ts ps) ∧ ps.find? (fun p => p.isStart) = some start

/-- The reasons to stop, in the order in which they are noticed. -/
inductive Stops (rx : Str → Option Hir) (text : Str) : Err → Prop
  /-- the text is not a grammar -/
  | syntaxError : (¬ ∃ ts ps, Cut text ts ∧ IsProgram ts ps) → Stops rx text .syntaxError
  /-- no production is the start -/
  | noStart {ts ps} : Cut text ts → IsProgram ts ps → (∀ p ∈ ps, p.isStart = false) → Stops rx text .noStart
  /-- a regex cannot be parsed -/
  | badRegex {ps start r} : ReadsGrammar text ps start → HasRegex ps r → rx r = none → Stops rx text .badRegex
  /-- all regexes can be parsed, and one contains something that is not implemented -/
  | todo {ps start r h} : ReadsGrammar text ps start → (∀ r, HasRegex ps r → rx r ≠ none) →
      HasRegex ps r → rx r = some h → Unimplemented h → Stops rx text .todo
  /-- all regexes can be parsed, and one contains an empty operand -/
  | emptyOperand {ps start r h} : ReadsGrammar text ps start → (∀ r, HasRegex ps r → rx r ≠ none) →
      HasRegex ps r → rx r = some h → EmptyOperand h → Stops rx text .optionUsizeNone
  /-- a nonterminal that can be reached has no rule -/
  | undefinedNonTerminal {ps start A} : ReadsGrammar text ps start → RegexesOk rx ps →
      Uses (AstRule ps) start.name A → (∀ rhs, ¬ AstRule ps A rhs) → Stops rx text .undefinedNonTerminal
  /-- from a nonterminal behind another one a left recursion can be reached through first symbols -/
  | stackOverflow {ps start A B} : ReadsGrammar text ps start → RegexesOk rx ps →
      Follows (AstRule ps) start.name A → LeftReach (AstRule ps) A B → LeftRec (AstRule ps) B →
      Stops rx text .stackOverflow
  /-- two items of one state claim one entry of the tables -/
  | conflict {ps start g} : ReadsGrammar text ps start → RegexesOk rx ps → Buildable (AstRule ps) start.name →
      Grammar.fromAst ps = .ok g → Clash g → Stops rx text .conflict

end Verif.Spec
