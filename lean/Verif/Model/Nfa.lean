import Verif.Model.Prelude

/-! # src/lex/nfa.rs -/

namespace Verif

/-- `RepetitionKind` of regex-syntax, as matched at src/lex/nfa.rs:160-196. -/
inductive RepKind where
  | zeroOrOne | zeroOrMore | oneOrMore | range
deriving DecidableEq, Repr

/-- `HirKind` of regex-syntax, as matched at src/lex/nfa.rs:104-233.
Simplifications: `Literal::Unicode` and `Literal::Byte` are both `lit` with a
code point (the code maps both to the one-element range of their number,
nfa.rs:542-552); a class is its list of inclusive ranges (nfa.rs:114-129);
greediness, group names and anchor kinds are dropped (the code ignores them). -/
inductive Hir where
  | empty
  | lit (c : Nat)
  | cls (rs : List (Nat × Nat))
  | anchor
  | wordBoundary
  | rep (k : RepKind) (h : Hir)
  | group (h : Hir)
  | concat (hs : List Hir)
  | alt (hs : List Hir)
deriving Repr

/-- `Match` (src/lex/nfa.rs:21-24): the half-open range `lo..hi`. -/
structure Match where
  lo : Nat
  hi : Nat
deriving DecidableEq, Repr

namespace Match
/-- `contains_u32` (src/lex/nfa.rs:507-509). -/
def containsU32 (m : Match) (c : Nat) : Bool := decide (m.lo ≤ c) && decide (c < m.hi)
/-- `Range::is_empty` as used at src/lex/nfa.rs:512-513 and src/lex/dfa.rs:295,301. -/
def isEmpty (m : Match) : Bool := !decide (m.lo < m.hi)
/-- `intersects` (src/lex/nfa.rs:511-515). -/
def intersects (a b : Match) : Bool :=
  !a.isEmpty && !b.isEmpty && (a.containsU32 b.lo || b.containsU32 a.lo)
/-- `is_disjoint` (src/lex/nfa.rs:517-519). -/
def isDisjoint (a b : Match) : Bool := !a.intersects b
/-- `compare` (src/lex/nfa.rs:521-527), hence `Ord::cmp` (492-496). -/
def compare (a b : Match) : Ordering :=
  match Ord.compare a.lo b.lo with
  | .lt => .lt
  | .eq => Ord.compare a.hi b.hi
  | .gt => .gt
/-- `Match::char` (src/lex/nfa.rs:542-546) and `Match::byte` (548-552). -/
def char (c : Nat) : Match := ⟨c, c + 1⟩
/-- `matches` (src/lex/nfa.rs:554-558); `c as u32` is `Char.toNat`. -/
def matchesC (m : Match) (c : Char) : Bool := decide (m.lo ≤ c.toNat) && decide (c.toNat < m.hi)
end Match

/-- `Ord for Match` (src/lex/nfa.rs:492-496). -/
instance : BOrd Match := ⟨fun a b => a.compare b == .lt⟩

/-- `Edge` (src/lex/nfa.rs:26-32); `label = none` is epsilon. -/
structure NEdge where
  src : Nat
  label : Option Match
  dst : Nat
deriving DecidableEq, Repr

/-- `State` (src/lex/nfa.rs:34-39).  Simplification: `OptionUsize` is `Option Nat`
(its sentinel is modelled in Model/OptionUsize.lean). -/
structure NState where
  first : Option Nat
  acc : Bool
deriving DecidableEq, Repr

/-- `NFA` (src/lex/nfa.rs:15-19). -/
structure Nfa where
  edges : List NEdge
  states : List NState
deriving DecidableEq, Repr

namespace Nfa

/-- `START_IDX` (src/lex/nfa.rs:62). -/
def START : Nat := 0
/-- `FINAL_ACCEPT_IDX` (src/lex/nfa.rs:63). -/
def FINAL : Nat := 1

/-- `push_edge` (src/lex/nfa.rs:93-101).  Simplification: `self.states[from]` out
of bounds leaves the states unchanged instead of panicking; C03 proves it is
always in bounds. -/
def pushEdge (n : Nfa) (src : Nat) (label : Option Match) (dst : Nat) : Nfa :=
  { edges := n.edges ++ [⟨src, label, dst⟩],
    states := n.states.modify src fun s =>
      match s.first with
      | none => { s with first := some n.edges.length }
      | some _ => s }

/-- The repeated `self.states.push(State { first_edge: none, is_accept: false })`
(src/lex/nfa.rs:134-137 and eight further places). -/
def pushState (n : Nfa) : Nfa := { n with states := n.states ++ [⟨none, false⟩] }

/-- `compile_match` (src/lex/nfa.rs:236-246). -/
def compileMatch (n : Nfa) (m : Match) (accept : Nat) : Nfa × Nat :=
  (n.pushState.pushEdge n.states.length (some m) accept, n.states.length)

/-- Class ranges to matches (src/lex/nfa.rs:114-129): inclusive to half-open. -/
def classMatch (r : Nat × Nat) : Match := ⟨r.1, r.2 + 1⟩

/-- `ranges.iter().map(|alt| self.compile_match(alt, f_idx)).collect()`
(src/lex/nfa.rs:147-150). -/
def compileMatches (f : Nat) : List Match → Nfa → Nfa × List Nat
  | [], n => (n, [])
  | m :: ms, n =>
    let (n1, t) := n.compileMatch m f
    let (n2, ts) := compileMatches f ms n1
    (n2, t :: ts)

/-- `for target in targets { self.push_edge(i_idx, EPSILON, target) }`
(src/lex/nfa.rs:152-154, 227-229), targets already unwrapped. -/
def pushEps (i : Nat) : List Nat → Nfa → Nfa
  | [], n => n
  | t :: ts, n => pushEps i ts (n.pushEdge i none t)

/-- `OptionUsize::unwrap` at src/lex/nfa.rs:153,170,201,228. -/
def unwrapO : Option Nat → Res Nat
  | some v => .ok v
  | none => .error .optionUsizeNone

/-- The `unwrap`s of the loop src/lex/nfa.rs:227-229.  Simplification: all
targets are unwrapped before the first edge is pushed; the panic outcome is the
same because the automaton is dropped by the unwinding. -/
def unwrapAll : List (Option Nat) → Res (List Nat)
  | [] => .ok []
  | o :: os => do
    let t ← unwrapO o
    let ts ← unwrapAll os
    return t :: ts

mutual
/-- `compile` (src/lex/nfa.rs:103-234). -/
def compile : Hir → Nfa → Nat → Res (Nfa × Option Nat)
  | .empty, n, _ => .ok (n, none)
  | .lit c, n, accept =>
    let (n, s) := n.compileMatch (Match.char c) accept
    .ok (n, some s)
  | .cls rs, n, accept =>
    let f := n.states.length
    let n := n.pushState.pushEdge f none accept
    let i := n.states.length
    let n := n.pushState
    let (n, ts) := compileMatches f (rs.map classMatch) n
    .ok (pushEps i ts n, some i)
  | .anchor, _, _ => .error .todo
  | .wordBoundary, _, _ => .error .todo
  | .rep .range _, _, _ => .error .todo
  | .rep k h, n, accept => do
    let sOut := n.states.length
    let (n, r) ← compile h n.pushState sOut
    let sIn ← unwrapO r
    let n := n.pushEdge sOut none accept
    let n := if k = .oneOrMore ∨ k = .zeroOrMore then n.pushEdge sOut none sIn else n
    let i := n.states.length
    let n := n.pushState.pushEdge i none sIn
    let n := if k = .zeroOrOne ∨ k = .zeroOrMore then n.pushEdge i none accept else n
    return (n, some i)
  | .group h, n, accept => compile h n accept
  | .concat hs, n, accept => do
    let (n, a) ← compileConcat hs n accept
    return (n, some a)
  | .alt hs, n, accept => do
    let f := n.states.length
    let n := n.pushState.pushEdge f none accept
    let i := n.states.length
    let (n, os) ← compileAlts hs n.pushState f
    let ts ← unwrapAll os
    return (pushEps i ts n, some i)
/-- The loop over `exprs.iter().rev()` (src/lex/nfa.rs:198-204): the tail of the
list is compiled first. -/
def compileConcat : List Hir → Nfa → Nat → Res (Nfa × Nat)
  | [], n, accept => .ok (n, accept)
  | h :: hs, n, accept => do
    let (n, a) ← compileConcat hs n accept
    let (n, r) ← compile h n a
    let a ← unwrapO r
    return (n, a)
/-- `alternations.iter().map(|alt| self.compile(alt, f_idx)).collect()`
(src/lex/nfa.rs:222-225). -/
def compileAlts : List Hir → Nfa → Nat → Res (Nfa × List (Option Nat))
  | [], n, _ => .ok (n, [])
  | h :: hs, n, f => do
    let (n, o) ← compile h n f
    let (n, os) ← compileAlts hs n f
    return (n, o :: os)
end

/-- The two initial states (src/lex/nfa.rs:66-80). -/
def init : Nfa := ⟨[], [⟨none, false⟩, ⟨none, true⟩]⟩

/-- `from_regex` (src/lex/nfa.rs:65-91). -/
def fromRegex (h : Hir) : Res Nfa := do
  let (n, r) ← compile h init FINAL
  return n.pushEdge START none (r.getD FINAL)

/-- `edge_iter` + `EdgeIter::next` (src/lex/nfa.rs:443-475) and the inlined loops
at 290-306 and 328-345: the edges from `first_edge` on, up to the first edge of
another state.  Simplification: `self.states[idx]` out of bounds yields no edges
instead of panicking; C03 proves indices are in bounds. -/
def edgeIter (n : Nfa) (s : Nat) : List NEdge :=
  match n.states[s]?.bind NState.first with
  | none => []
  | some i => (n.edges.drop i).takeWhile fun e => e.src == s

/-- Iteration order of a `HashSet<StateIdx>` (src/lex/nfa.rs:284,315,
src/lex/dfa.rs:156): one arbitrary reordering per iteration, numbered by call. -/
abbrev Order := Nat → List Nat → List Nat

/-- Inner loop of `epsilon_closure` (src/lex/nfa.rs:328-345): targets of epsilon
edges not yet in `ret`, pushed in order (the stack's top is the list head). -/
def epsPush (ret : List Nat) : List NEdge → List Nat → List Nat
  | [], stack => stack
  | e :: es, stack =>
    match e.label with
    | none => if e.dst ∈ ret then epsPush ret es stack else epsPush ret es (e.dst :: stack)
    | some _ => epsPush ret es stack

/-- Outer loop of `epsilon_closure` (src/lex/nfa.rs:317-346).  `fuel` bounds the
iterations. -/
def epsLoop (n : Nfa) : Nat → List Nat → List Nat → Res (List Nat)
  | _, [], ret => .ok ret
  | 0, _ :: _, _ => .error .outOfFuel
  | fuel + 1, s :: stack, ret =>
    let ret := hinsert s ret
    epsLoop n fuel (epsPush ret (n.edgeIter s) stack) ret

/-- Iterations sufficient for `epsLoop`, see `Verif.Nfa.epsClosure_ok`
(loop at src/lex/nfa.rs:317-346). -/
def epsFuel (n : Nfa) (set : List Nat) : Nat :=
  set.length + (((List.range n.states.length).map fun s => (n.edgeIter s).length).sum)

/-- `epsilon_closure` (src/lex/nfa.rs:312-349).  `ord` is the iteration order of
the `HashSet` argument at call number `i`; `stack` is that order with the last
element on top. -/
def epsClosure (n : Nfa) (ord : Order) (i : Nat) (set : List Nat) : Res (List Nat) :=
  epsLoop n (epsFuel n (ord i set)) (ord i set).reverse []

/-- `move_state` (src/lex/nfa.rs:281-310). -/
def moveState (n : Nfa) (ord : Order) (i : Nat) (set : List Nat) (c : Char) : List Nat :=
  (ord i set).foldl (fun ret s =>
    (n.edgeIter s).foldl (fun ret e =>
      match e.label with
      | some m => if m.matchesC c then hinsert e.dst ret else ret
      | none => ret) ret) []

/-- The loop of `simulate` (src/lex/nfa.rs:260-262). -/
def simLoop (n : Nfa) (ord : Order) : Nat → List Nat → List Char → Res (List Nat)
  | _, set, [] => .ok set
  | i, set, c :: cs => do
    let set ← epsClosure n ord (i + 1) (moveState n ord i set c)
    simLoop n ord (i + 2) set cs

/-- `accepting_states` (src/lex/nfa.rs:425-433) and the same enumeration at
264-276. -/
def acceptingStates (n : Nfa) : List Nat :=
  (List.range n.states.length).filter fun i => (n.states[i]?.map NState.acc).getD false

/-- `simulate` (src/lex/nfa.rs:257-279) with `has_accepting_states` (351-362). -/
def simulate (n : Nfa) (ord : Order) (s : Str) : Res Bool := do
  let set ← epsClosure n ord 0 [START]
  let set ← simLoop n ord 1 set s
  return set.any fun x => decide (x ∈ n.acceptingStates)

/-- `labels` (src/lex/nfa.rs:409-423). -/
def labels (n : Nfa) : List Match :=
  (List.range n.states.length).flatMap fun s => (n.edgeIter s).filterMap NEdge.label

/-- The loop of `lex_nfa_template` (src/lex/nfa.rs:382-390). -/
def templateLoop : Nat → List Nat → Nfa → Nfa
  | _, [], n => n
  | off, len :: lens, n => templateLoop (off + len) lens (n.pushEdge START none (START + off))

/-- `lex_nfa_template` (src/lex/nfa.rs:367-393).  Simplification: only the state
counts are passed; the edge counts are used for `Vec` capacity only. -/
def template (stateLens : List Nat) : Nfa :=
  templateLoop 1 stateLens ⟨[], [⟨none, false⟩]⟩

/-- `shift_state_and_edges` (src/lex/nfa.rs:395-407). -/
def shift (n : Nfa) (stateOff edgeOff : Nat) : Nfa :=
  { states := n.states.map fun s => { s with first := s.first.map (· + edgeOff) },
    edges := n.edges.map fun e => ⟨e.src + stateOff, e.label, e.dst + stateOff⟩ }

end Nfa
end Verif
