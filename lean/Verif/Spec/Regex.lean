import Verif.Model.Nfa

/-! # Specification: regular expressions

Textbook meaning of a regex, independent of automata. -/

namespace Verif.Spec

open Verif

/-- `Matches h w`: the whole string `w` matches the regex `h`. -/
inductive Matches : Hir → List Char → Prop
  | empty : Matches .empty []
  | lit {c : Char} {k : Nat} : c.toNat = k → Matches (.lit k) [c]
  | cls {c : Char} {rs : List (Nat × Nat)} {r : Nat × Nat} :
      r ∈ rs → r.1 ≤ c.toNat → c.toNat ≤ r.2 → Matches (.cls rs) [c]
  | optNil {h} : Matches (.rep .zeroOrOne h) []
  | optOne {h w} : Matches h w → Matches (.rep .zeroOrOne h) w
  | starNil {h} : Matches (.rep .zeroOrMore h) []
  | starCons {h w₁ w₂} : Matches h w₁ → Matches (.rep .zeroOrMore h) w₂ →
      Matches (.rep .zeroOrMore h) (w₁ ++ w₂)
  | plus {h w₁ w₂} : Matches h w₁ → Matches (.rep .zeroOrMore h) w₂ →
      Matches (.rep .oneOrMore h) (w₁ ++ w₂)
  | group {h w} : Matches h w → Matches (.group h) w
  | concatNil : Matches (.concat []) []
  | concatCons {h hs w₁ w₂} : Matches h w₁ → Matches (.concat hs) w₂ →
      Matches (.concat (h :: hs)) (w₁ ++ w₂)
  | alt {h hs w} : h ∈ hs → Matches h w → Matches (.alt hs) w

/-- The empty regex, possibly wrapped in groups. -/
inductive BareEmpty : Hir → Prop
  | empty : BareEmpty .empty
  | group {h} : BareEmpty h → BareEmpty (.group h)

/-- Regexes without anchors, word boundaries and counted repetition, and without
an empty operand under a repetition, concatenation or alternation. -/
inductive Supported : Hir → Prop
  | empty : Supported .empty
  | lit (c) : Supported (.lit c)
  | cls (rs) : Supported (.cls rs)
  | rep {k h} : k ≠ .range → Supported h → ¬ BareEmpty h → Supported (.rep k h)
  | group {h} : Supported h → Supported (.group h)
  | concat {hs} : (∀ h ∈ hs, Supported h) → (∀ h ∈ hs, ¬ BareEmpty h) → Supported (.concat hs)
  | alt {hs} : (∀ h ∈ hs, Supported h) → (∀ h ∈ hs, ¬ BareEmpty h) → Supported (.alt hs)

/-- The regex contains an anchor, a word boundary or a counted repetition, or a
repetition, concatenation or alternation with an empty operand. -/
inductive Unsupported : Hir → Prop
  | anchor : Unsupported .anchor
  | wordBoundary : Unsupported .wordBoundary
  | range (h) : Unsupported (.rep .range h)
  | repEmpty {k h} : BareEmpty h → Unsupported (.rep k h)
  | concatEmpty {h hs} : h ∈ hs → BareEmpty h → Unsupported (.concat hs)
  | altEmpty {h hs} : h ∈ hs → BareEmpty h → Unsupported (.alt hs)
  | rep {k h} : Unsupported h → Unsupported (.rep k h)
  | group {h} : Unsupported h → Unsupported (.group h)
  | concat {h hs} : h ∈ hs → Unsupported h → Unsupported (.concat hs)
  | alt {h hs} : h ∈ hs → Unsupported h → Unsupported (.alt hs)

/-- The regex contains an anchor, a word boundary or a counted repetition. -/
inductive Unimplemented : Hir → Prop
  | anchor : Unimplemented .anchor
  | wordBoundary : Unimplemented .wordBoundary
  | range (h) : Unimplemented (.rep .range h)
  | rep {k h} : Unimplemented h → Unimplemented (.rep k h)
  | group {h} : Unimplemented h → Unimplemented (.group h)
  | concat {h hs} : h ∈ hs → Unimplemented h → Unimplemented (.concat hs)
  | alt {h hs} : h ∈ hs → Unimplemented h → Unimplemented (.alt hs)

/-- The regex contains a repetition, concatenation or alternation with an empty operand. -/
inductive EmptyOperand : Hir → Prop
  | repEmpty {k h} : BareEmpty h → EmptyOperand (.rep k h)
  | concatEmpty {h hs} : h ∈ hs → BareEmpty h → EmptyOperand (.concat hs)
  | altEmpty {h hs} : h ∈ hs → BareEmpty h → EmptyOperand (.alt hs)
  | rep {k h} : EmptyOperand h → EmptyOperand (.rep k h)
  | group {h} : EmptyOperand h → EmptyOperand (.group h)
  | concat {h hs} : h ∈ hs → EmptyOperand h → EmptyOperand (.concat hs)
  | alt {h hs} : h ∈ hs → EmptyOperand h → EmptyOperand (.alt hs)

/-- Every literal and every class range contains a character, and no alternation
is empty (an ordinary regex; `[^\s\S]` is the kind of regex this excludes). -/
inductive NonVoid : Hir → Prop
  | empty : NonVoid .empty
  | lit (c : Char) : NonVoid (.lit c.toNat)
  | cls {rs : List (Nat × Nat)} : rs ≠ [] →
      (∀ r ∈ rs, ∃ c : Char, r.1 ≤ c.toNat ∧ c.toNat ≤ r.2) → NonVoid (.cls rs)
  | anchor : NonVoid .anchor
  | wordBoundary : NonVoid .wordBoundary
  | rep {k h} : NonVoid h → NonVoid (.rep k h)
  | group {h} : NonVoid h → NonVoid (.group h)
  | concat {hs} : (∀ h ∈ hs, NonVoid h) → NonVoid (.concat hs)
  | alt {hs} : hs ≠ [] → (∀ h ∈ hs, NonVoid h) → NonVoid (.alt hs)

mutual
/-- The character ranges (half-open) occurring in a regex. -/
def ranges : Hir → List Match
  | .empty => []
  | .lit c => [⟨c, c + 1⟩]
  | .cls rs => rs.map fun r => ⟨r.1, r.2 + 1⟩
  | .anchor => []
  | .wordBoundary => []
  | .rep _ h => ranges h
  | .group h => ranges h
  | .concat hs => rangesAll hs
  | .alt hs => rangesAll hs
/-- The character ranges occurring in a list of regexes. -/
def rangesAll : List Hir → List Match
  | [] => []
  | h :: hs => ranges h ++ rangesAll hs
end

/-- `Next h w m`: after reading `w`, which begins a match of `h`, the next character may come from
the range `m` of `h`. -/
inductive Next : Hir → List Char → Match → Prop
  | lit {c : Nat} : Next (.lit c) [] ⟨c, c + 1⟩
  | cls {rs : List (Nat × Nat)} {r : Nat × Nat} : r ∈ rs → Next (.cls rs) [] ⟨r.1, r.2 + 1⟩
  | repFirst {k h w m} : Next h w m → Next (.rep k h) w m
  | repMore {k h u v m} : k = .oneOrMore ∨ k = .zeroOrMore → Matches (.rep .zeroOrMore h) u → Next h v m →
      Next (.rep k h) (u ++ v) m
  | group {h w m} : Next h w m → Next (.group h) w m
  | concatHead {h hs w m} : Next h w m → Next (.concat (h :: hs)) w m
  | concatTail {h hs u v m} : Matches h u → Next (.concat hs) v m → Next (.concat (h :: hs)) (u ++ v) m
  | alt {h hs w m} : h ∈ hs → Next h w m → Next (.alt hs) w m

/-- Reachability by epsilon edges in a graph given by its list of edges. -/
inductive EpsReach (es : List NEdge) : Nat → Nat → Prop
  | refl (s) : EpsReach es s s
  | step {e : NEdge} {s t : Nat} : e ∈ es → e.src = s → e.label = none → EpsReach es e.dst t →
      EpsReach es s t

/-- `Path es s w t`: the graph has a path from `s` to `t` reading `w`. -/
inductive Path (es : List NEdge) : Nat → List Char → Nat → Prop
  | nil (s) : Path es s [] s
  | eps {e : NEdge} {s w t} : e ∈ es → e.src = s → e.label = none → Path es e.dst w t →
      Path es s w t
  | chr {e : NEdge} {s m c w t} : e ∈ es → e.src = s → e.label = some m →
      m.lo ≤ c.toNat → c.toNat < m.hi → Path es e.dst w t → Path es s (c :: w) t

/-- `ord` only reorders: what iterating a `HashSet` may do. -/
def Reorders (ord : Nfa.Order) : Prop := ∀ i l, (ord i l).Perm l

end Verif.Spec
