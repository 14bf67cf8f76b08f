import Verif.Model.Hash
import Verif.Spec.SipHash

/-! # The hash written out is SipHash -/

namespace Verif.Hash
open Spec

/-- The words of a state as numbers. -/
def ofState (s : SipHash.State) : Sip := ⟨s.v0.toNat, s.v1.toNat, s.v2.toNat, s.v3.toNat⟩

theorem add64_eq (a b : BitVec 64) : add64 a.toNat b.toNat = (a + b).toNat := by
  simp [add64, BitVec.toNat_add]

theorem rotl_eq (a : BitVec 64) {n : Nat} (hn : n < 64) : rotl a.toNat n = (a.rotateLeft n).toNat := by
  rw [rotl, BitVec.toNat_rotateLeft, Nat.mod_eq_of_lt hn, Nat.or_mod_two_pow]
  congr 1
  refine Nat.mod_eq_of_lt (Nat.lt_of_le_of_lt ?_ a.isLt)
  rw [Nat.shiftRight_eq_div_pow]
  exact Nat.div_le_self _ _

theorem round_eq (s : SipHash.State) : Sip.round (ofState s) = ofState (SipHash.sipRound s) := by
  simp only [Sip.round, ofState, SipHash.sipRound, Id.run, pure, add64_eq, ← BitVec.toNat_xor, rotl_eq _ (by decide : 13 < 64),
    rotl_eq _ (by decide : 32 < 64), rotl_eq _ (by decide : 16 < 64), rotl_eq _ (by decide : 21 < 64), rotl_eq _ (by decide : 17 < 64)]

theorem word_eq (s : SipHash.State) (m : BitVec 64) : Sip.word (ofState s) m.toNat = ofState (SipHash.compress 1 s m) := by
  have := round_eq { s with v3 := s.v3 ^^^ m }
  simp only [ofState, BitVec.toNat_xor] at this
  simp only [Sip.word, this, ofState, SipHash.compress, SipHash.rounds, BitVec.toNat_xor]

theorem finish_eq (s : SipHash.State) : Sip.finish (ofState s) =
    (let t := SipHash.rounds 3 { s with v2 := s.v2 ^^^ 0xff }
    t.v0 ^^^ t.v1 ^^^ t.v2 ^^^ t.v3).toNat := by
  have h : (⟨(ofState s).v0, (ofState s).v1, (ofState s).v2 ^^^ 255, (ofState s).v3⟩ : Sip) =
      ofState { s with v2 := s.v2 ^^^ 0xff } := by
    simp [ofState, BitVec.toNat_xor]
  simp only [Sip.finish, h, round_eq, SipHash.rounds]
  simp [ofState, BitVec.toNat_xor]

theorem ofBytes_lt (bs : List (BitVec 8)) : ofBytes (bs.map (·.toNat)) < 256 ^ bs.length := by
  induction bs with
  | nil => simp [ofBytes]
  | cons b bs ih =>
    have := b.isLt
    simp only [List.map_cons, ofBytes, List.length_cons, Nat.pow_succ]
    omega

/-- Eight bytes or-ed together are their sum. -/
theorem or_bytes (b0 b1 b2 b3 b4 b5 b6 b7 : BitVec 8) :
    (b0.setWidth 64 ||| b1.setWidth 64 <<< 8 ||| b2.setWidth 64 <<< 16 ||| b3.setWidth 64 <<< 24 |||
      b4.setWidth 64 <<< 32 ||| b5.setWidth 64 <<< 40 ||| b6.setWidth 64 <<< 48 ||| b7.setWidth 64 <<< 56).toNat =
    ofBytes ([b0, b1, b2, b3, b4, b5, b6, b7].map (·.toNat)) := by
  have h0 := b0.isLt; have h1 := b1.isLt; have h2 := b2.isLt; have h3 := b3.isLt
  have h4 := b4.isLt; have h5 := b5.isLt; have h6 := b6.isLt; have h7 := b7.isLt
  have key : ∀ (x y k : Nat), x < 2 ^ k → x ||| y <<< k = x + y <<< k := by
    intro x y k h
    rw [Nat.or_comm, Nat.add_comm, Nat.shiftLeft_add_eq_or_of_lt h]
  have sh : ∀ (b : BitVec 8) (k : Nat), k ≤ 56 → (b.setWidth 64 <<< k).toNat = b.toNat <<< k := by
    intro b k hk
    have hb := b.isLt
    rw [BitVec.toNat_shiftLeft, BitVec.toNat_setWidth, Nat.mod_eq_of_lt (by omega : b.toNat < 2 ^ 64)]
    refine Nat.mod_eq_of_lt ?_
    rw [Nat.shiftLeft_eq]
    calc b.toNat * 2 ^ k < 2 ^ 8 * 2 ^ k := Nat.mul_lt_mul_of_pos_right hb (Nat.two_pow_pos k)
      _ ≤ 2 ^ 8 * 2 ^ 56 := Nat.mul_le_mul_left _ (Nat.pow_le_pow_right (by decide) hk)
      _ = 2 ^ 64 := by decide
  simp only [BitVec.toNat_or, sh _ _ (by decide : 8 ≤ 56), sh _ _ (by decide : 16 ≤ 56), sh _ _ (by decide : 24 ≤ 56),
    sh _ _ (by decide : 32 ≤ 56), sh _ _ (by decide : 40 ≤ 56), sh _ _ (by decide : 48 ≤ 56), sh _ _ (by decide : 56 ≤ 56)]
  rw [BitVec.toNat_setWidth, Nat.mod_eq_of_lt (by omega : b0.toNat < 2 ^ 64)]
  simp only [List.map_cons, List.map_nil, ofBytes]
  rw [key _ _ 8 (by omega)]
  rw [key _ _ 16 (by simp only [Nat.shiftLeft_eq]; omega)]
  rw [key _ _ 24 (by simp only [Nat.shiftLeft_eq]; omega)]
  rw [key _ _ 32 (by simp only [Nat.shiftLeft_eq]; omega)]
  rw [key _ _ 40 (by simp only [Nat.shiftLeft_eq]; omega)]
  rw [key _ _ 48 (by simp only [Nat.shiftLeft_eq]; omega)]
  rw [key _ _ 56 (by simp only [Nat.shiftLeft_eq]; omega)]
  simp only [Nat.shiftLeft_eq]
  omega

/-- Padding with the number of all bytes given. -/
def padTo (n : Nat) (l : List (BitVec 8)) : List (BitVec 8) :=
  l ++ List.replicate (7 - l.length % 8) 0 ++ [BitVec.ofNat 8 n]

theorem padTo_cons (n : Nat) (b0 b1 b2 b3 b4 b5 b6 b7 : BitVec 8) (l : List (BitVec 8)) :
    padTo n (b0 :: b1 :: b2 :: b3 :: b4 :: b5 :: b6 :: b7 :: l) = b0 :: b1 :: b2 :: b3 :: b4 :: b5 :: b6 :: b7 :: padTo n l := by
  simp only [padTo, List.length_cons, List.cons_append]
  congr 11
  omega

theorem words_cons (b0 b1 b2 b3 b4 b5 b6 b7 : BitVec 8) (l : List (BitVec 8)) :
    SipHash.words (b0 :: b1 :: b2 :: b3 :: b4 :: b5 :: b6 :: b7 :: l) =
      SipHash.word [b0, b1, b2, b3, b4, b5, b6, b7] 0 :: SipHash.words l := by
  have : (b0 :: b1 :: b2 :: b3 :: b4 :: b5 :: b6 :: b7 :: l).length / 8 = l.length / 8 + 1 := by simp only [List.length_cons]; omega
  unfold SipHash.words
  rw [this, List.range_succ_eq_map, List.map_cons, List.map_map]
  refine List.cons_eq_cons.mpr ⟨rfl, List.map_congr_left fun i _ => ?_⟩
  simp only [Function.comp, SipHash.word, SipHash.byte, Nat.succ_eq_add_one, Nat.mul_add, Nat.mul_one]
  simp only [Nat.add_assoc, Nat.reduceAdd]
  simp [show ∀ k, 8 * i + (8 + k) = 8 * i + k + 8 from fun k => by omega]

theorem word_zero (b0 b1 b2 b3 b4 b5 b6 b7 : BitVec 8) :
    (SipHash.word [b0, b1, b2, b3, b4, b5, b6, b7] 0).toNat = ofBytes ([b0, b1, b2, b3, b4, b5, b6, b7].map (·.toNat)) := by
  rw [← or_bytes]
  rfl

theorem ofBytes_append (xs ys : List Nat) : ofBytes (xs ++ ys) = ofBytes xs + 256 ^ xs.length * ofBytes ys := by
  induction xs with
  | nil => simp [ofBytes]
  | cons x xs ih =>
    simp only [List.cons_append, ofBytes, ih, List.length_cons, Nat.pow_succ]
    rw [Nat.mul_add, ← Nat.mul_assoc, Nat.mul_comm 256 (256 ^ _), Nat.add_assoc]

theorem ofBytes_zeros (k : Nat) : ofBytes (List.replicate k 0) = 0 := by
  induction k with
  | zero => rfl
  | succ k ih => simp [List.replicate_succ, ofBytes, ih]

theorem feed_short (n : Nat) {l : List Nat} (h : l.length < 8) (s : Sip) :
    Sip.feed n l s = s.word (ofBytes l + (n % 256) <<< 56) := by
  unfold Sip.feed
  split
  · simp only [List.length_cons] at h; omega
  · rfl

theorem words_eight {p : List (BitVec 8)} (h : p.length = 8) :
    ∃ w, SipHash.words p = [w] ∧ w.toNat = ofBytes (p.map (·.toNat)) := by
  match p, h with
  | [b0, b1, b2, b3, b4, b5, b6, b7], _ => exact ⟨_, words_cons b0 b1 b2 b3 b4 b5 b6 b7 [], word_zero ..⟩

theorem feed_last (n : Nat) {bs : List (BitVec 8)} (h : bs.length < 8) (s : SipHash.State) :
    Sip.feed n (bs.map (·.toNat)) (ofState s) = ofState ((SipHash.words (padTo n bs)).foldl (SipHash.compress 1) s) := by
  have hl : bs.length % 8 = bs.length := Nat.mod_eq_of_lt h
  obtain ⟨w, h1, h2⟩ := words_eight (p := padTo n bs) (by simp [padTo, hl]; omega)
  rw [feed_short n (by simpa using h), h1, List.foldl_cons, List.foldl_nil, ← word_eq, h2]
  refine congrArg (Sip.word (ofState s)) ?_
  simp only [padTo, List.map_append, ofBytes_append, List.map_replicate, hl, List.length_map, List.length_append, List.length_replicate,
    List.map_cons, List.map_nil, ofBytes, BitVec.toNat_ofNat, Nat.mul_zero, Nat.add_zero]
  rw [show bs.length + (7 - bs.length) = 7 by omega, Nat.shiftLeft_eq, Nat.mul_comm,
    show BitVec.toNat (0 : BitVec 8) = 0 from rfl, ofBytes_zeros, Nat.mul_zero, Nat.add_zero,
    show (256 : Nat) ^ 7 = 2 ^ 56 by decide, show (2 : Nat) ^ 8 = 256 by decide]

theorem feed_eq (n : Nat) (bs : List (BitVec 8)) (s : SipHash.State) :
    Sip.feed n (bs.map (·.toNat)) (ofState s) = ofState ((SipHash.words (padTo n bs)).foldl (SipHash.compress 1) s) := by
  by_cases h : bs.length < 8
  · exact feed_last n h s
  match bs, h with
  | b0 :: b1 :: b2 :: b3 :: b4 :: b5 :: b6 :: b7 :: bs, _ =>
    have ih := feed_eq n bs (SipHash.compress 1 s (SipHash.word [b0, b1, b2, b3, b4, b5, b6, b7] 0))
    rw [padTo_cons, words_cons, List.foldl_cons, ← ih, ← word_eq, word_zero]
    rfl
  | [], h | [_], h | [_, _], h | [_, _, _], h | [_, _, _, _], h | [_, _, _, _, _], h | [_, _, _, _, _, _], h
  | [_, _, _, _, _, _, _], h => exact absurd (by simp) h
termination_by bs.length

theorem sip13_eq (bs : List (BitVec 8)) : sip13 (bs.map (·.toNat)) = (SipHash.hash 1 3 0 0 bs).toNat := by
  have h : Sip.new = ofState (SipHash.init 0 0) := by simp [Sip.new, ofState, SipHash.init]
  rw [sip13, h, List.length_map, feed_eq, finish_eq]
  rfl

theorem le32_eq (n : Nat) : (SipHash.le32 n).map (·.toNat) = le32 n := by
  simp [SipHash.le32, le32, List.range_succ, Nat.shiftRight_eq_div_pow]

end Verif.Hash
