import Verif.Spec.Lexer

/-! # Specification: what the tokens match when a text is read piece by piece

The generator cuts the alphabet into pieces and reads a text as a word of pieces: a character is
taken for the first piece that contains it and fits somewhere, and a piece only matches the ranges that contain all
of it.  When the pieces are cut right this is the ordinary meaning of a regex; they are not always. -/

namespace Verif.Spec

open Verif

/-- The range `r` contains all of the piece `a`. -/
def Covers (r a : Match) : Prop := r.lo ≤ a.lo ∧ a.hi ≤ r.hi

/-- `PMatches h as`: the whole word of pieces `as` matches the regex `h`; as `Matches`, with pieces for characters. -/
inductive PMatches : Hir → List Match → Prop
  | empty : PMatches .empty []
  | lit {a : Match} {k : Nat} : Covers ⟨k, k + 1⟩ a → PMatches (.lit k) [a]
  | cls {a : Match} {rs : List (Nat × Nat)} {r : Nat × Nat} :
      r ∈ rs → Covers ⟨r.1, r.2 + 1⟩ a → PMatches (.cls rs) [a]
  | optNil {h} : PMatches (.rep .zeroOrOne h) []
  | optOne {h w} : PMatches h w → PMatches (.rep .zeroOrOne h) w
  | starNil {h} : PMatches (.rep .zeroOrMore h) []
  | starCons {h w₁ w₂} : PMatches h w₁ → PMatches (.rep .zeroOrMore h) w₂ →
      PMatches (.rep .zeroOrMore h) (w₁ ++ w₂)
  | plus {h w₁ w₂} : PMatches h w₁ → PMatches (.rep .zeroOrMore h) w₂ →
      PMatches (.rep .oneOrMore h) (w₁ ++ w₂)
  | group {h w} : PMatches h w → PMatches (.group h) w
  | concatNil : PMatches (.concat []) []
  | concatCons {h hs w₁ w₂} : PMatches h w₁ → PMatches (.concat hs) w₂ →
      PMatches (.concat (h :: hs)) (w₁ ++ w₂)
  | alt {h hs w} : h ∈ hs → PMatches h w → PMatches (.alt hs) w

/-- As `Next`, with pieces for characters. -/
inductive PNext : Hir → List Match → Match → Prop
  | lit {c : Nat} : PNext (.lit c) [] ⟨c, c + 1⟩
  | cls {rs : List (Nat × Nat)} {r : Nat × Nat} : r ∈ rs → PNext (.cls rs) [] ⟨r.1, r.2 + 1⟩
  | repFirst {k h w m} : PNext h w m → PNext (.rep k h) w m
  | repMore {k h u v m} : k = .oneOrMore ∨ k = .zeroOrMore → PMatches (.rep .zeroOrMore h) u → PNext h v m →
      PNext (.rep k h) (u ++ v) m
  | group {h w m} : PNext h w m → PNext (.group h) w m
  | concatHead {h hs w m} : PNext h w m → PNext (.concat (h :: hs)) w m
  | concatTail {h hs u v m} : PMatches h u → PNext (.concat hs) v m → PNext (.concat (h :: hs)) (u ++ v) m
  | alt {h hs w m} : h ∈ hs → PNext h w m → PNext (.alt hs) w m

/-- As `Path`, with pieces for characters. -/
inductive PPath (es : List NEdge) : Nat → List Match → Nat → Prop
  | nil (s) : PPath es s [] s
  | eps {e : NEdge} {s w t} : e ∈ es → e.src = s → e.label = none → PPath es e.dst w t →
      PPath es s w t
  | chr {e : NEdge} {s m c w t} : e ∈ es → e.src = s → e.label = some m →
      m.lo ≤ c.lo → c.hi ≤ m.hi → PPath es e.dst w t → PPath es s (c :: w) t

/-- The ranges the next character may come from after the pieces `as`. -/
def PAfter (hs : List Hir) (as : List Match) (m : Match) : Prop := ∃ h ∈ hs, PNext h as m

/-- `Reads al hs w as`: with the pieces `al`, the text `w` is read as the pieces `as`. -/
inductive Reads (al : List Match) (hs : List Hir) : List Char → List Match → Prop
  | nil : Reads al hs [] []
  | snoc {w as c a} : Reads al hs w as → Chosen al (PAfter hs as) c.toNat a → Reads al hs (w ++ [c]) (as ++ [a])

/-- Read piece by piece, `w` is the token `i`, the first declared one that matches. -/
def PToken (al : List Match) (toks : List (TokenDef × Hir)) (w : List Char) (i : Nat) : Prop :=
  ∃ as, Reads al (toks.map Prod.snd) w as ∧ (∃ p, toks[i]? = some p ∧ PMatches p.2 as) ∧
    ∀ j p, j < i → toks[j]? = some p → ¬ PMatches p.2 as

/-- The text can be read piece by piece. -/
def PViable (al : List Match) (toks : List (TokenDef × Hir)) (w : List Char) : Prop :=
  ∃ as, Reads al (toks.map Prod.snd) w as

/-- `w` is the longest non-empty prefix of `input` that is a token, by `T` the token `i`. -/
def LongestToken (T : List Char → Nat → Prop) (input w : List Char) (i : Nat) : Prop :=
  w ≠ [] ∧ (∃ r, input = w ++ r) ∧ T w i ∧ ∀ v j, (∃ r, input = v ++ r) → w.length < v.length → ¬ T v j

/-- As `Lexes`, for any meaning `T` of "is the token" and any meaning `V` of "may still become one". -/
inductive Munch (T : List Char → Nat → Prop) (V : List Char → Prop) :
    Nat → List Char → List (Nat × Nat × List Char) → List Char → Prop
  | done {k} : Munch T V k [] [] []
  | blank {k c rest out dr} : Blank c → ¬ V [c] → Munch T V (k + 1) rest out dr → Munch T V k (c :: rest) out dr
  | tok {k input w i rest out dr} : LongestToken T input w i → input = w ++ rest → ¬ V input →
      Munch T V (k + w.length) rest out dr → Munch T V k input ((k, i, w) :: out) dr
  | tokEnd {k input w i rest} : LongestToken T input w i → input = w ++ rest → V input →
      Munch T V k input [(k, i, w)] rest
  | stop {k c rest} : (∀ v i, v ≠ [] → (∃ r, c :: rest = v ++ r) → ¬ T v i) → ¬ (Blank c ∧ ¬ V [c]) →
      Munch T V k (c :: rest) [] (c :: rest)

/-- As `Scan`, for any meaning `T` of "is the token" and any meaning `V` of "may still become one". -/
inductive MunchErr (T : List Char → Nat → Prop) (V : List Char → Prop) :
    Nat → List Char → List (Nat × Nat × List Char) → Option (Nat × Char) → Prop
  | done {k} : MunchErr T V k [] [] none
  | blank {k c rest out err} : Blank c → ¬ V [c] → MunchErr T V (k + 1) rest out err → MunchErr T V k (c :: rest) out err
  | tok {k input w i rest out err} : LongestToken T input w i → input = w ++ rest → ¬ V input →
      MunchErr T V (k + w.length) rest out err → MunchErr T V k input ((k, i, w) :: out) err
  | tokEnd {k input w i rest} : LongestToken T input w i → input = w ++ rest → V input →
      MunchErr T V k input [(k, i, w)] none
  | cut {k input} : input ≠ [] → (∀ v i, v ≠ [] → (∃ r, input = v ++ r) → ¬ T v i) → V input →
      MunchErr T V k input [] none
  | bad {k input j c} : (∀ v i, v ≠ [] → (∃ r, input = v ++ r) → ¬ T v i) → input[j]? = some c →
      (∀ j', 0 < j' → j' ≤ j → V (input.take j')) → ¬ V (input.take (j + 1)) →
      ¬ (j = 0 ∧ Blank c) → MunchErr T V k input [] (some (k + j, c))

end Verif.Spec
