import Verif.Spec.Regex
import Verif.Spec.Ranges
import Verif.Model.Lex

/-! # Specification: lexing -/

namespace Verif.Spec

open Verif

/-- The character ranges occurring in the token regexes. -/
def rangesOf (toks : List (TokenDef × Hir)) : List Match := toks.flatMap fun p => ranges p.2

/-- After reading `w`, the next character of one of the regexes may come from the range `m`. -/
def After (hs : List Hir) (w : List Char) (m : Match) : Prop := ∃ h ∈ hs, Next h w m

/-- `A w` are the ranges, among `rs`, that the next character may come from after `w` was read.  The
first piece of the alphabet of the generator that contains this character and lies inside a range
possible there lies inside every range possible there that contains the character.  (The code means
more to hold always, that no piece lies partly inside a range; neither does, see C06.) -/
def Fits (rs : List Match) (A : List Char → Match → Prop) : Prop :=
  ∀ al, Overlap.removeOverlap (ofList rs) = .ok al → ∀ w (c : Char) a r,
    Chosen al (A w) c.toNat a → A w r → Mem c.toNat r → Within a r

/-- The pieces of the alphabet fit the regexes. -/
def AtomsOk (hs : List Hir) : Prop := Fits (hs.flatMap ranges) (After hs)

/-- No piece of the alphabet of the generator lies partly inside one of the ranges. -/
def WholePieces (rs : List Match) : Prop :=
  ∀ al, Overlap.removeOverlap (ofList rs) = .ok al → ∀ a ∈ al, ∀ r ∈ rs, Within a r ∨ Disjoint a r

/-- Some token regex matches an extension of `w`. -/
def Viable (toks : List (TokenDef × Hir)) (w : List Char) : Prop :=
  ∃ v, ∃ p ∈ toks, Matches p.2 (w ++ v)

/-- Walk of a DFA from state 0, always taking the first edge whose range contains
the next character. -/
inductive DWalk (d : Dfa) : List Char → Nat → Prop
  | nil : DWalk d [] 0
  | snoc {w t c e} : DWalk d w t → (d.edgeIter t).find? (fun e => e.label.matchesC c) = some e →
      DWalk d (w ++ [c]) e.dst

/-- Space or newline. -/
def Blank (c : Char) : Prop := c = ' ' ∨ c = '\n'

/-- The `i`-th token matches `w` and no earlier one does. -/
def FirstMatch (toks : List (TokenDef × Hir)) (w : List Char) (i : Nat) : Prop :=
  (∃ p, toks[i]? = some p ∧ Matches p.2 w) ∧ ∀ j p, j < i → toks[j]? = some p → ¬ Matches p.2 w

/-- `w` is the longest non-empty prefix of `input` matched by any token. -/
def LongestMatch (toks : List (TokenDef × Hir)) (input w : List Char) : Prop :=
  w ≠ [] ∧ (∃ r, input = w ++ r) ∧ (∃ p ∈ toks, Matches p.2 w) ∧
  ∀ v, (∃ r, input = v ++ r) → w.length < v.length → ∀ p ∈ toks, ¬ Matches p.2 v

/-- Maximal munch with the generator's rule for blanks and for the end of the
input.  `Lexes toks k input out dropped`: the text `input`, which starts at
character offset `k`, is cut into the pieces `out` (offset, index of the token,
text) and `dropped` is never turned into tokens. -/
inductive Lexes (toks : List (TokenDef × Hir)) :
    Nat → List Char → List (Nat × Nat × List Char) → List Char → Prop
  /-- Nothing left. -/
  | done {k} : Lexes toks k [] [] []
  /-- A blank no token can start with is skipped. -/
  | blank {k c rest out dr} : Blank c → ¬ Viable toks [c] →
      Lexes toks (k + 1) rest out dr → Lexes toks k (c :: rest) out dr
  /-- The longest match, first declared token; some later character shows that
  no longer match is possible. -/
  | tok {k input w i rest out dr} : LongestMatch toks input w → FirstMatch toks w i →
      input = w ++ rest → ¬ Viable toks input →
      Lexes toks (k + w.length) rest out dr → Lexes toks k input ((k, i, w) :: out) dr
  /-- The longest match when the whole remaining input could still be extended to
  a match: the text after the match is dropped. -/
  | tokEnd {k input w i rest} : LongestMatch toks input w → FirstMatch toks w i →
      input = w ++ rest → Viable toks input → Lexes toks k input [(k, i, w)] rest
  /-- No match starts here: the rest is dropped. -/
  | stop {k c rest} : (∀ v, v ≠ [] → (∃ r, c :: rest = v ++ r) → ∀ p ∈ toks, ¬ Matches p.2 v) →
      ¬ (Blank c ∧ ¬ Viable toks [c]) → Lexes toks k (c :: rest) [] (c :: rest)

/-- A weaker description that holds without any condition on the ranges: the
pieces are non-empty, matched by their token, in order, and only blanks are
skipped between them. -/
inductive Pieces (toks : List (TokenDef × Hir)) :
    Nat → List Char → List (Nat × Nat × List Char) → List Char → Prop
  | stop {k dr} : Pieces toks k dr [] dr
  | blank {k c rest out dr} : Blank c → Pieces toks (k + 1) rest out dr →
      Pieces toks k (c :: rest) out dr
  | tok {k w i p rest out dr} : w ≠ [] → toks[i]? = some p → Matches p.2 w →
      Pieces toks (k + w.length) rest out dr → Pieces toks k (w ++ rest) ((k, i, w) :: out) dr

/-- Where blanks go, for any ranges: at the start of the input and after each piece, a blank that
no token can start with is skipped, and nothing else is. -/
inductive Skips (toks : List (TokenDef × Hir)) :
    Nat → List Char → List (Nat × Nat × List Char) → List Char → Prop
  | done {k} : Skips toks k [] [] []
  | blank {k c rest out dr} : Blank c → ¬ Viable toks [c] → Skips toks (k + 1) rest out dr →
      Skips toks k (c :: rest) out dr
  | tok {k w i p rest out dr} : w ≠ [] → toks[i]? = some p → Matches p.2 w →
      Skips toks (k + w.length) rest out dr → Skips toks k (w ++ rest) ((k, i, w) :: out) dr
  /-- The input ends inside the attempt at a longer match. -/
  | last {k w i p rest} : w ≠ [] → toks[i]? = some p → Matches p.2 w → Viable toks (w ++ rest) →
      Skips toks k (w ++ rest) [(k, i, w)] rest
  | stop {k c rest} : ¬ (Blank c ∧ ¬ Viable toks [c]) → Skips toks k (c :: rest) [] (c :: rest)

/-- Length in UTF-8. -/
def bytes (s : List Char) : Nat := (s.map Char.utf8Size).sum

/-- `v` is the text from byte `k` on, `n` bytes long. -/
def BytesAt (input : List Char) (k n : Nat) (v : List Char) : Prop :=
  ∃ a b, input = a ++ v ++ b ∧ bytes a = k ∧ bytes v = n

/-- The token emitted for a piece: the character positions of the piece are taken as byte
positions. -/
def Carries (toks : List (TokenDef × Hir)) (input : List Char) (p : Nat × Nat × List Char) (t : Token) : Prop :=
  ∃ d h, toks[p.2.1]? = some (d, h) ∧ t.name = d.name ∧
    ((d.withVal = false ∧ t.val = none) ∨
      (d.withVal = true ∧ ∃ v, t.val = some v ∧ BytesAt input p.1 p.2.2.length v))

/-- The token for a piece: its name, and its text if the token has a value. -/
def tokenOf (toks : List (TokenDef × Hir)) (p : Nat × Nat × List Char) : Token :=
  match toks[p.2.1]? with
  | some (d, _) => ⟨d.name, if d.withVal then some p.2.2 else none⟩
  | none => ⟨[], none⟩

end Verif.Spec
