import Verif.Spec.Pieces
import Verif.Spec.Tokens

/-! # Specification: words written apart -/

namespace Verif.Spec
open Verif

/-- `Apart B ws s`: the text `s` is the words `ws` in their order, one or more characters of `B` between them and any number
before the first and after the last. -/
inductive Apart (B : Char → Prop) : List (List Char) → List Char → Prop
  | nil : Apart B [] []
  | blank {c ws s} : B c → Apart B ws s → Apart B ws (c :: s)
  | last {w} : Apart B [w] w
  | word {w c ws s} : B c → Apart B ws s → Apart B (w :: ws) (w ++ c :: s)

/-- A blank in none of the ranges of the tokens. -/
def Free (toks : List (TokenDef × Hir)) (c : Char) : Prop := Blank c ∧ ∀ r ∈ rangesOf toks, ¬ Mem c.toNat r

/-- The terminal `x` stands for the word `u`, and no terminal with a smaller number does. -/
def Spells (rx : Str → Option Hir) (g : Grammar) (x : Sym) (u : List Char) : Prop :=
  u ≠ [] ∧ ∃ k : Nat, g.tokens[k]? = some x ∧ IsTerm x ∧ Denotes rx x u ∧
    ∀ (j : Nat) (y : Sym), j < k → g.tokens[j]? = some y → IsTerm y → ¬ Denotes rx y u

end Verif.Spec
