import Verif.Spec.Cfg
import Verif.Spec.Show

/-! # Specification: rightmost derivations, and reading what is printed -/

namespace Verif.Spec
open Verif

/-- `Rightmost R α rs β`: rewriting the last nonterminal with each of the rules `rs` in turn leads from `α` to `β`. -/
inductive Rightmost (R : Str → List Sym → Prop) : List Sym → List (Str × List Sym) → List Sym → Prop
  | done {α} : Rightmost R α [] α
  | step {l A rhs t rs β} : R A rhs → (∀ x ∈ t, IsTerm x) → Rightmost R (l ++ rhs ++ t) rs β →
      Rightmost R (l ++ .nonTerm A :: t) ((A, rhs) :: rs) β

/-- The text of a rule. -/
def RuleText (r : Str × List Sym) (s : Str) : Prop := ∃ w, Spelled r.2 w ∧ s = r.1 ++ " ⇒  ".toList ++ w

/-- What follows `pre` in the texts that begin with it. -/
def following (pre : Str) (ls : List Str) : List Str :=
  ls.filterMap fun s => if pre.isPrefixOf s then some (s.drop pre.length) else none

/-- Numbers between brackets. -/
def Listed (ns : List Nat) (s : Str) : Prop := s = "[".toList ++ ", ".toList.intercalate (ns.map fun n => n.repr.toList) ++ "]".toList

/-- The two lines an iteration begins with: the stack from the bottom, its top, the number of the current token, its text and its
place. -/
def Heads (stack : List Nat) (a : Nat) (tok : Str) (i : Nat) (ls : List Str) : Prop :=
  ∃ under top s, stack = under ++ [top] ∧ Listed stack s ∧ ls = ["STACK: ".toList ++ s,
    "S=".toList ++ top.repr.toList ++ " TOKEN TokenIdx(".toList ++ a.repr.toList ++ "): ".toList ++ tok ++ " i=".toList ++ i.repr.toList]

end Verif.Spec
