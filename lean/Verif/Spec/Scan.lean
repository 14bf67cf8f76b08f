import Verif.Spec.Lexer

/-! # Specification: lexing that reports an invalid symbol -/

namespace Verif.Spec

open Verif

/-- No non-empty prefix of `input` is matched by a token. -/
def NoMatch (toks : List (TokenDef × Hir)) (input : List Char) : Prop :=
  ∀ v, v ≠ [] → (∃ r, input = v ++ r) → ∀ p ∈ toks, ¬ Matches p.2 v

/-- Maximal munch with an error report.  `Scan toks k input out err`: the text
`input`, which starts at character offset `k`, is cut into the pieces `out`
(offset, index of the token, text); `err` is the offset and the character of the
first symbol after which nothing can be matched. -/
inductive Scan (toks : List (TokenDef × Hir)) :
    Nat → List Char → List (Nat × Nat × List Char) → Option (Nat × Char) → Prop
  /-- Nothing left. -/
  | done {k} : Scan toks k [] [] none
  /-- A blank no token can start with is skipped. -/
  | blank {k c rest out err} : Blank c → ¬ Viable toks [c] →
      Scan toks (k + 1) rest out err → Scan toks k (c :: rest) out err
  /-- The longest match, first declared token. -/
  | tok {k input w i rest out err} : LongestMatch toks input w → FirstMatch toks w i →
      input = w ++ rest → ¬ Viable toks input →
      Scan toks (k + w.length) rest out err → Scan toks k input ((k, i, w) :: out) err
  /-- The longest match when the whole remaining input could still be extended. -/
  | tokEnd {k input w i rest} : LongestMatch toks input w → FirstMatch toks w i →
      input = w ++ rest → Viable toks input → Scan toks k input [(k, i, w)] none
  /-- The input ends inside a token. -/
  | cut {k input} : input ≠ [] → NoMatch toks input → Viable toks input → Scan toks k input [] none
  /-- No match starts here, and `c` is the first character that rules one out. -/
  | bad {k input j c} : NoMatch toks input → input[j]? = some c →
      (∀ j', 0 < j' → j' ≤ j → Viable toks (input.take j')) → ¬ Viable toks (input.take (j + 1)) →
      ¬ (j = 0 ∧ Blank c) → Scan toks k input [] (some (k + j, c))

end Verif.Spec
