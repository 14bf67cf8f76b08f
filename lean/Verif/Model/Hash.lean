import Verif.Model.Item

/-! # The hash of cores

`core_hash` (src/lalr/item.rs:153-163) feeds the items of a set to `DefaultHasher::new()`.  The
derived `Hash` of `Item`, `ProductionIdx` and `TokenIdx` (src/lalr/item.rs:28-38, src/lalr.rs) feeds
each `u32` as its four bytes, here the low byte first as on all usual machines.  `DefaultHasher` is
not in the repository: in the standard library it is SipHash with one round for each word and three
at the end, and with both keys zero.  It is written out here on natural numbers below `2 ^ 64`. -/

namespace Verif.Hash

/-- The bytes fed by `u32::hash`, called from the derived `Hash` of `Item`
(src/lalr/item.rs:28-29, 159-161).  A `u32` is a natural number here: only its low 32 bits count. -/
def le32 (n : Nat) : List Nat := [n % 256, n / 256 % 256, n / 65536 % 256, n / 16777216 % 256]

/-- The bytes fed by the derived `Item::hash` (src/lalr/item.rs:28-29). -/
def itemBytes (it : Item) : List Nat := le32 it.1 ++ le32 it.2

/-- The bytes fed by `core_hash_with_hasher` (src/lalr/item.rs:158-163). -/
def coreBytes (c : List Item) : List Nat := c.flatMap itemBytes

/-- The bytes fed by `ItemSet::hash` (src/lalr/item.rs:328-337). -/
def setBytes (s : ItemSet) : List Nat := s.flatMap fun e => itemBytes e.1 ++ e.2.flatMap le32

/-- The state of the hasher (`DefaultHasher::new()`, src/lalr/item.rs:148, 154, from the standard library). -/
structure Sip where
  /-- `v0` (used at src/lalr/item.rs:154). -/
  v0 : Nat
  /-- `v1` (used at src/lalr/item.rs:154). -/
  v1 : Nat
  /-- `v2` (used at src/lalr/item.rs:154). -/
  v2 : Nat
  /-- `v3` (used at src/lalr/item.rs:154). -/
  v3 : Nat

/-- Sum of 64-bit words, wrapping (hasher of src/lalr/item.rs:154). -/
def add64 (a b : Nat) : Nat := (a + b) % 2 ^ 64

/-- Rotation of a 64-bit word to the left (hasher of src/lalr/item.rs:154). -/
def rotl (a n : Nat) : Nat := (a <<< n ||| a >>> (64 - n)) % 2 ^ 64

/-- The two half rounds on `v0, v1` and `v2, v3`, then on `v2, v1` and `v0, v3` (hasher of
src/lalr/item.rs:154). -/
def Sip.round (s : Sip) : Sip :=
  let a0 := add64 s.v0 s.v1
  let a1 := rotl s.v1 13 ^^^ a0
  let b0 := rotl a0 32
  let a2 := add64 s.v2 s.v3
  let a3 := rotl s.v3 16 ^^^ a2
  let c0 := add64 b0 a3
  let c3 := rotl a3 21 ^^^ c0
  let c2 := add64 a2 a1
  let c1 := rotl a1 17 ^^^ c2
  ⟨c0, c1, rotl c2 32, c3⟩

/-- `DefaultHasher::new()` (src/lalr/item.rs:148, 154). -/
def Sip.new : Sip := ⟨0x736f6d6570736575, 0x646f72616e646f6d, 0x6c7967656e657261, 0x7465646279746573⟩

/-- One word of the input (hasher of src/lalr/item.rs:154). -/
def Sip.word (s : Sip) (m : Nat) : Sip :=
  let t := Sip.round ⟨s.v0, s.v1, s.v2, s.v3 ^^^ m⟩
  ⟨t.v0 ^^^ m, t.v1, t.v2, t.v3⟩

/-- A number from its bytes, the low byte first (hasher of src/lalr/item.rs:154). -/
def ofBytes : List Nat → Nat
  | [] => 0
  | b :: bs => b + 256 * ofBytes bs

/-- The words of eight bytes, and the last word with the bytes left over and the number of all bytes
in its top byte (hasher of src/lalr/item.rs:154; `n` is that number). -/
def Sip.feed (n : Nat) : List Nat → Sip → Sip
  | b0 :: b1 :: b2 :: b3 :: b4 :: b5 :: b6 :: b7 :: bs, s => Sip.feed n bs (s.word (ofBytes [b0, b1, b2, b3, b4, b5, b6, b7]))
  | rest, s => s.word (ofBytes rest + (n % 256) <<< 56)

/-- `finish` (src/lalr/item.rs:150, 162). -/
def Sip.finish (s : Sip) : Nat :=
  let t := (Sip.round (Sip.round (Sip.round ⟨s.v0, s.v1, s.v2 ^^^ 255, s.v3⟩)))
  t.v0 ^^^ t.v1 ^^^ t.v2 ^^^ t.v3

/-- The hash of a string of bytes by a new `DefaultHasher` (src/lalr/item.rs:148-150, 154-162). -/
def sip13 (bs : List Nat) : Nat := (Sip.feed bs.length bs Sip.new).finish

/-- `core_hash` (src/lalr/item.rs:153-163). -/
def coreHash (c : List Item) : Nat := sip13 (coreBytes c)

/-- `default_hash` (src/lalr/item.rs:147-151). -/
def defaultHash (s : ItemSet) : Nat := sip13 (setBytes s)

end Verif.Hash
