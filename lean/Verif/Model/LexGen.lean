import Verif.Model.Lex

/-! # src/codegen/lex_gen.rs

The contents of the generated tables; layout and comments of the generated file
are in `Model/LexText.lean`. -/

namespace Verif.LexGen

/-- `ts::State` (src/codegen/lex_gen.rs:44-48), as printed by `to_string`
(114-140): targets and `{ from, to }` labels in two parallel lists. -/
structure State where
  to : List Nat
  labels : List (Nat × Nat)
  accepting : Bool
deriving DecidableEq, Repr

/-- `ts::Ctx` (src/codegen/lex_gen.rs:36-42) without `chars`. -/
structure Tables where
  tokens : List (Nat × Str × Bool)
  states : List State
  dfaToNfa : List (Nat × List Nat)
deriving DecidableEq, Repr

/-- `State::from_lex_state` (src/codegen/lex_gen.rs:179-196). -/
def State.fromLexState (d : Dfa) (s : Nat) : State :=
  { to := (d.edgeIter s).map (·.dst)
    labels := (d.edgeIter s).map fun e => (e.label.lo, e.label.hi)
    accepting := d.stateIsAccepting s }

/-- The iterator of src/codegen/lex_gen.rs:56-63: an entry for every token state
and every DFA state that has it among its accepting NFA states. -/
def tokenEntries (lx : Lex) : List (Nat × Str × Bool) :=
  lx.tokens.flatMap fun kv =>
    (List.range lx.dfa.states.length).filterMap fun idx =>
      match mget idx lx.acceptingDfaToNfa with
      | some l => if kv.1 ∈ l then some (kv.1, kv.2.name, kv.2.withVal) else none
      | none => none

/-- `Ctx::new` (src/codegen/lex_gen.rs:54-80); `BTreeMap::from_iter` inserts one
by one (55-56). -/
def Tables.new (lx : Lex) : Tables :=
  { tokens := (tokenEntries lx).foldl (fun m e => minsert e.1 e.2 m) []
    states := (List.range lx.dfa.states.length).map (State.fromLexState lx.dfa)
    dfaToNfa := lx.dfa.dfaToNfa }

/-- The ranges of the parsed regex `.` (src/codegen/lex_gen.rs:208-214): every
character but the newline.  Simplification: what `regex-syntax` returns is
written out. -/
def dotRanges : List (Nat × Nat) := [(0, 10), (11, 0x110000)]

/-- `range_chars` (src/codegen/lex_gen.rs:218-228), as code points: `i as u8`. -/
def rangeChars : List Nat :=
  (dotRanges.flatMap fun r => (List.range' r.1 (r.2 - r.1)).map (· % 256)) ++ [' '.toNat]

/-- `invisible_codepoints` (src/codegen/lex_gen.rs:230-273).  Simplification: only
the entries below 256 are listed, the characters compared with them come from
`u8`s. -/
def invisible : List Nat := [9, 11, 12, 13, 127, 160, 173]

/-- Body of the loop src/codegen/lex_gen.rs:276-286. -/
def addChar (m : List (Nat × Nat)) (c : Nat) : List (Nat × Nat) :=
  if c ∈ invisible then m
  else
    match mget c m with
    | none => minsert c (c % 256) m
    | some _ => m

/-- `char_map` (src/codegen/lex_gen.rs:275-288), keyed by code point. -/
def charMap : List (Nat × Nat) := rangeChars.foldl addChar []

/-- `CharTable[char]` of the generated ts/chars.ts (src/codegen/lex_gen.rs:303-317),
`none` when the character is not in the tables.  `char_escape` (294-301) produces
a literal denoting the character. -/
def charCode (c : Char) : Option Nat := mget c.toNat charMap

end Verif.LexGen
