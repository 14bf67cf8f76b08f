import Verif.Model.Nfa

/-! # src/lex/dfa.rs -/

namespace Verif

/-- `Edge` (src/lex/dfa.rs:28-33). -/
structure DEdge where
  src : Nat
  label : Match
  dst : Nat
deriving DecidableEq, Repr

/-- `DFA` (src/lex/dfa.rs:12-20); `states` holds the `first_edge` of each state
(`State`, 35-41). -/
structure Dfa where
  edges : List DEdge
  states : List (Option Nat)
  dfaToNfa : List (Nat × List Nat)
  accepting : List Nat
deriving DecidableEq, Repr

namespace Overlap

/-- Sum of the lengths of the ranges from `start` on plus that of `r`: enough fuel
for `addRange` (loop src/lex/dfa.rs:300-353), see `Verif.Overlap.addRange_ok`. -/
def size (r : Match) (start : Nat) (l : List Match) : Nat :=
  (r.hi - r.lo) + ((l.drop start).map fun m => m.hi - m.lo).sum

/-- One activation of `add_range` (src/lex/dfa.rs:300-345), up to its two recursive
calls: either it returns, or it still has to add `mid` and `mx` from `next` on
to the list `l`. -/
inductive Step where
  | done (res : Res (List Match))
  | more (mid mx : Match) (next : Nat) (l : List Match)

/-- Body of `add_range` before the recursive calls (src/lex/dfa.rs:300-345). -/
def addStep (r : Match) (start : Nat) (l : List Match) : Step :=
  if r.isEmpty then .done (.ok l)
  else
    match (l.drop start).findIdx? (fun m => m.intersects r) with
    | some idx =>
      let index := idx + start
      let o := l.getD index ⟨0, 0⟩
      if o = r then .done (.ok l)
      else
        let minMin := min r.lo o.lo
        let midMin := max r.lo o.lo
        let midMax := min r.hi o.hi
        let maxMax := max r.hi o.hi
        let low : Match := ⟨minMin, midMin⟩
        let mid : Match := ⟨midMin, midMax⟩
        let mx : Match := ⟨midMax, maxMax⟩
        if !low.isDisjoint mid || !low.isDisjoint mx || !mid.isDisjoint mx then
          .done (.error .assertFailed)
        else .more mid mx (index + 1) (l.set index low)
    | none => .done (.ok (l ++ [r]))

/-- `add_range` (src/lex/dfa.rs:300-353): `addStep`, then the two recursive calls
(346-347).  `fuel` bounds the recursion depth. -/
def addRange : Nat → Match → Nat → List Match → Res (List Match)
  | fuel, r, start, l =>
    match addStep r start l with
    | .done res => res
    | .more mid mx next l =>
      match fuel with
      | 0 => .error .outOfFuel
      | fuel + 1 => do
        let l ← addRange fuel mid next l
        addRange fuel mx next l

/-- The loop src/lex/dfa.rs:289-291. -/
def addAll : List Match → List Match → Res (List Match)
  | [], l => .ok l
  | r :: rs, l => do
    let l ← addRange (size r 0 l) r 0 l
    addAll rs l

/-- `remove_overlap` (src/lex/dfa.rs:280-298); the argument is the sorted content
of the `BTreeSet`. -/
def removeOverlap (ranges : List Match) : Res (List Match) := do
  let l ← addAll ranges []
  return l.filter fun r => !r.isEmpty

end Overlap

namespace Dfa

/-- Inner loop of `DFABuilder::epsilon_closure` (src/lex/dfa.rs:247-252). -/
def epsPush : List NEdge → List Nat → List Nat → List Nat × List Nat
  | [], stack, set => (stack, set)
  | e :: es, stack, set =>
    match e.label with
    | none => if e.dst ∈ set then epsPush es stack set
              else epsPush es (e.dst :: stack) (oinsert e.dst set)
    | some _ => epsPush es stack set

/-- Outer loop of `DFABuilder::epsilon_closure` (src/lex/dfa.rs:244-254). -/
def epsLoop (n : Nfa) : Nat → List Nat → List Nat → Res (List Nat)
  | _, [], set => .ok set
  | 0, _ :: _, _ => .error .outOfFuel
  | fuel + 1, s :: stack, set =>
    let (stack, set) := epsPush (n.edgeIter s) stack set
    epsLoop n fuel stack set

/-- `DFABuilder::epsilon_closure` (src/lex/dfa.rs:238-257).  Fuel: every iteration
pops a state and each state is pushed at most once. -/
def epsClosure (n : Nfa) (set : List Nat) : Res (List Nat) :=
  epsLoop n (set.length + n.states.length) set.reverse set

/-- `move_set` (src/lex/dfa.rs:259-276); `label.hi - 1` cannot underflow because
labels are non-empty (C05). -/
def moveSet (n : Nfa) (set : List Nat) (label : Match) : List Nat :=
  set.foldl (fun ret s =>
    (n.edgeIter s).foldl (fun ret e =>
      match e.label with
      | some l => if l.containsU32 label.lo && l.containsU32 (label.hi - 1)
                  then oinsert e.dst ret else ret
      | none => ret) ret) []

/-- Local variables of `build` (src/lex/dfa.rs:164-169). -/
structure BState where
  edges : List DEdge
  firstEdges : List (Option Nat)
  marks : List Bool
  dStates : List (List Nat)
  dfaToNfa : List (Nat × List Nat)
deriving DecidableEq, Repr

/-- Body of the loop over the alphabet (src/lex/dfa.rs:184-218). -/
def buildLabel (n : Nfa) (t : Nat) (b : BState) (label : Match) : Res BState := do
  let u ← epsClosure n (moveSet n (b.dStates.getD t []) label)
  if u.isEmpty then return b
  else
    let (b, idx) :=
      match b.dStates.findIdx? (fun s => decide (s = u)) with
      | some i => (b, i)
      | none =>
        ({ b with
            marks := b.marks ++ [false]
            dStates := b.dStates ++ [u]
            dfaToNfa := minsert b.dStates.length u b.dfaToNfa }, b.dStates.length)
    return { b with
      firstEdges := b.firstEdges.modify t fun f =>
        match f with
        | none => some b.edges.length
        | some i => some i
      edges := b.edges ++ [⟨t, label, idx⟩] }

/-- The loop over the alphabet (src/lex/dfa.rs:184-218). -/
def buildLabels (n : Nfa) (t : Nat) : List Match → BState → Res BState
  | [], b => .ok b
  | l :: ls, b => do
    let b ← buildLabel n t b l
    buildLabels n t ls b

/-- The outer loop of `build` (src/lex/dfa.rs:171-219). -/
def buildLoop (n : Nfa) (alphabet : List Match) : Nat → BState → Res BState
  | fuel, b =>
    match b.marks.findIdx? (fun m => !m) with
    | none => .ok b
    | some t =>
      match fuel with
      | 0 => .error .outOfFuel
      | fuel + 1 => do
        let b := { b with marks := b.marks.set t true, firstEdges := b.firstEdges ++ [none] }
        let b ← buildLabels n t alphabet b
        buildLoop n alphabet fuel b

/-- `DFABuilder::build` (src/lex/dfa.rs:163-236).  `ord` is the iteration order of
the `HashSet`s involved in computing the first state (166-168).  Fuel: there are
at most `2 ^ #states` sets of NFA states. -/
def build (n : Nfa) (ord : Nfa.Order) (alphabet : List Match) : Res Dfa := do
  let s0 ← n.epsClosure ord 0 [Nfa.START]
  let b ← buildLoop n alphabet (2 ^ n.states.length)
    { edges := [], firstEdges := [], marks := [false], dStates := [ofList (ord 1 s0)], dfaToNfa := [] }
  return { edges := b.edges
           states := (List.range b.dStates.length).map fun i => b.firstEdges.getD i none
           dfaToNfa := b.dfaToNfa
           accepting := n.acceptingStates }

/-- `from_nfa` (src/lex/dfa.rs:92-100). -/
def fromNfa (n : Nfa) (ord : Nfa.Order) : Res Dfa := do
  let alphabet ← Overlap.removeOverlap (ofList n.labels)
  build n ord alphabet

/-- `edge_iter` + `EdgeIter::next` (src/lex/dfa.rs:132-143, 361-373).  As for the
NFA, an out-of-bounds state yields no edges; C07 proves states are in bounds. -/
def edgeIter (d : Dfa) (s : Nat) : List DEdge :=
  match (d.states[s]?).bind id with
  | none => []
  | some i => (d.edges.drop i).takeWhile fun e => e.src == s

/-- `edge_iter(s).find(|edge| edge.label.matches(c))` (src/lex/dfa.rs:114-115,
src/lex/lex.rs:170-173). -/
def findEdge (d : Dfa) (s : Nat) (c : Char) : Option DEdge :=
  (d.edgeIter s).find? fun e => e.label.matchesC c

/-- The loop of `DFA::simulate` (src/lex/dfa.rs:110-123); a state without edges
skips the character (`if let` has no `else`). -/
def simLoop (d : Dfa) : Nat → Nat → List Char → Nat × Nat
  | s, eaten, [] => (s, eaten)
  | s, eaten, c :: cs =>
    match (d.states[s]?).bind id with
    | none => simLoop d s eaten cs
    | some _ =>
      match d.findEdge s c with
      | some e => simLoop d e.dst (eaten + 1) cs
      | none => (s, eaten)

/-- `DFA::simulate` (src/lex/dfa.rs:109-130). -/
def simulate (d : Dfa) (s : Str) : Option Nat :=
  let (st, eaten) := simLoop d 0 0 s
  if (mget st d.dfaToNfa).isSome then some eaten else none

/-- `s.len()`: UTF-8 length in bytes (src/lex/dfa.rs:104). -/
def byteLen (s : Str) : Nat := (s.map Char.utf8Size).sum

/-- `DFA::test` (src/lex/dfa.rs:102-107). -/
def test (d : Dfa) (s : Str) : Bool :=
  match d.simulate s with
  | some eaten => eaten == byteLen s
  | none => false

/-- `DFA::dfa_state_is_accepting` (src/lex/dfa.rs:46-58). -/
def stateIsAccepting (d : Dfa) (s : Nat) : Bool :=
  match mget s d.dfaToNfa with
  | some nfaStates => nfaStates.any fun x => decide (x ∈ d.accepting)
  | none => false

/-- `DFA::accepting_states` (src/lex/dfa.rs:60-80): for each DFA state its
accepting NFA states in increasing order; states without any are absent. -/
def acceptingStates (d : Dfa) : List (Nat × List Nat) :=
  d.dfaToNfa.filterMap fun p =>
    match p.2.filter (fun x => decide (x ∈ d.accepting)) with
    | [] => none
    | l => some (p.1, l)

end Dfa
end Verif
