/-! # Specification: SipHash

As in the paper of Aumasson and Bernstein (2012), on words of 64 bits: `hash c d k0 k1` is SipHash-c-d with the
key `k0, k1`. -/

namespace Verif.Spec.SipHash

/-- The four words of the state. -/
structure State where
  v0 : BitVec 64
  v1 : BitVec 64
  v2 : BitVec 64
  v3 : BitVec 64

/-- One round, the steps in the order of figure 2.1 of the paper. -/
def sipRound (s : State) : State := Id.run do
  let mut ⟨v0, v1, v2, v3⟩ := s
  v0 := v0 + v1
  v2 := v2 + v3
  v1 := v1.rotateLeft 13
  v3 := v3.rotateLeft 16
  v1 := v1 ^^^ v0
  v3 := v3 ^^^ v2
  v0 := v0.rotateLeft 32
  v2 := v2 + v1
  v0 := v0 + v3
  v1 := v1.rotateLeft 17
  v3 := v3.rotateLeft 21
  v1 := v1 ^^^ v2
  v3 := v3 ^^^ v0
  v2 := v2.rotateLeft 32
  return ⟨v0, v1, v2, v3⟩

/-- `n` rounds. -/
def rounds : Nat → State → State
  | 0, s => s
  | n + 1, s => rounds n (sipRound s)

/-- The message followed by zeros up to the last byte of a word, which is the number of its bytes. -/
def pad (msg : List (BitVec 8)) : List (BitVec 8) :=
  msg ++ List.replicate (7 - msg.length % 8) 0 ++ [BitVec.ofNat 8 msg.length]

/-- Byte number `i`. -/
def byte (l : List (BitVec 8)) (i : Nat) : BitVec 64 := (l[i]?.getD 0).setWidth 64

/-- Word number `i`, the low byte first. -/
def word (l : List (BitVec 8)) (i : Nat) : BitVec 64 :=
  byte l (8 * i) ||| byte l (8 * i + 1) <<< 8 ||| byte l (8 * i + 2) <<< 16 ||| byte l (8 * i + 3) <<< 24 |||
    byte l (8 * i + 4) <<< 32 ||| byte l (8 * i + 5) <<< 40 ||| byte l (8 * i + 6) <<< 48 ||| byte l (8 * i + 7) <<< 56

/-- The words of the padded message. -/
def words (l : List (BitVec 8)) : List (BitVec 64) := (List.range (l.length / 8)).map (word l)

/-- The state after the key. -/
def init (k0 k1 : BitVec 64) : State :=
  ⟨k0 ^^^ 0x736f6d6570736575, k1 ^^^ 0x646f72616e646f6d, k0 ^^^ 0x6c7967656e657261, k1 ^^^ 0x7465646279746573⟩

/-- A word is mixed in before and after `c` rounds. -/
def compress (c : Nat) (s : State) (m : BitVec 64) : State :=
  let t := rounds c { s with v3 := s.v3 ^^^ m }
  { t with v0 := t.v0 ^^^ m }

/-- SipHash-c-d. -/
def hash (c d : Nat) (k0 k1 : BitVec 64) (msg : List (BitVec 8)) : BitVec 64 :=
  let s := (words (pad msg)).foldl (compress c) (init k0 k1)
  let t := rounds d { s with v2 := s.v2 ^^^ 0xff }
  t.v0 ^^^ t.v1 ^^^ t.v2 ^^^ t.v3

/-- A number of 32 bits as four bytes, the low one first. -/
def le32 (n : Nat) : List (BitVec 8) := (List.range 4).map fun i => BitVec.ofNat 8 (n >>> (8 * i))

end Verif.Spec.SipHash
