import Verif.Model.TsParse

/-! # Specification: the parameter checks of an action -/

namespace Verif.Spec
open Verif ParseGen Ts

variable {V : Type}

/-- The symbol `y` is what a parameter of this kind asks for. -/
def Suits (S : Sem V) : Param → Symb V → Prop
  | .nonTerm k, y => ∃ v, y = .nonTerm k v ∧ S.has k v = true
  | .strLit s, y => ∃ kind, y = .token (some ⟨kind, some (.val s)⟩)
  | .regex _, y => ∃ kind w, y = .token (some ⟨kind, some (.val w)⟩)
  | .named _ _, _ => False

/-- Input and symbol agree: nothing is asked of inputs without a name. -/
def Checked (S : Sem V) (p : Param) (y : Symb V) : Prop := ∀ n ty, p = .named n ty → Suits S ty y

/-- The value of a symbol. -/
def valueOf (S : Sem V) : Symb V → Option V
  | .nonTerm _ v => some v
  | .token (some ⟨_, some (.val w)⟩) => some (S.text w)
  | _ => none

/-- The names of parameters with the values of their symbols. -/
def valuesOf (S : Sem V) : List Param → List (Symb V) → List (Str × V)
  | .named n _ :: ps, y :: ys => ((valueOf S y).map fun v => (n, v)).toList ++ valuesOf S ps ys
  | _ :: ps, _ :: ys => valuesOf S ps ys
  | _, _ => []

/-- Name of a parameter. -/
def Param.name? : Param → Option Str
  | .named n _ => some n
  | _ => none

/-- Parameters as the grammar language writes them, with distinct names, none of
which is the name of a nonterminal among the inputs. -/
structure ParamsOk (ps : List Param) : Prop where
  flat : ∀ n ty, Param.named n ty ∈ ps → ∀ m t, ty ≠ .named m t
  distinct : (ps.filterMap Param.name?).Nodup
  noType : ∀ n ty k, Param.named n ty ∈ ps → ∀ m, Param.named m (.nonTerm k) ∈ ps → n ≠ k

/-- The positions, from `i + 1`, that are checked, in order: a nonterminal takes one
check, a terminal two. -/
def positions : Nat → List Param → List Nat
  | _, [] => []
  | i, .named _ (.nonTerm _) :: ps => (i + 1) :: positions (i + 1) ps
  | i, .named _ _ :: ps => (i + 1) :: (i + 1) :: positions (i + 1) ps
  | i, _ :: ps => positions (i + 1) ps

/-- The position a message names. -/
def Msg.pos : Msg → Nat
  | .invalidSymbol p _ => p
  | .notToken p _ => p

end Verif.Spec
