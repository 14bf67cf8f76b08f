import Verif.Model.OptionUsize
import Verif.Spec.Ranges
import Verif.Proofs.Overlap

/-! # C40 (OptionUsize), C41 (Match) -/

namespace Verif.Props
open Verif Verif.Spec

/-- C40: the abstraction of an `OptionUsize`: which `Option` it stands for. -/
def absOpt (o : OptUsize.OptionUsize) : Option UInt64 :=
  match OptUsize.isSome o with
  | true => some o.raw
  | false => none

/-- C40.  Away from the sentinel, `some v` behaves as `Some(v)` under every operation. -/
theorem C40_some (v : UInt64) (hv : v ≠ 0xFFFFFFFFFFFFFFFF) :
    OptUsize.isSome (OptUsize.some v) = (some v).isSome ∧
    OptUsize.isNone (OptUsize.some v) = (some v).isNone ∧
    OptUsize.unwrap (OptUsize.some v) = .ok v ∧
    (∀ d, OptUsize.unwrapOr (OptUsize.some v) d = (some v).getD d) ∧
    (∀ {α : Type} (f : UInt64 → Option α), OptUsize.map (OptUsize.some v) f = (some v).bind f) := by
  refine ⟨?_, ?_, ?_, ?_, ?_⟩ <;>
    simp [OptUsize.isSome, OptUsize.isNone, OptUsize.unwrap, OptUsize.unwrapOr, OptUsize.map,
      OptUsize.some, OptUsize.usizeMax, hv]

example : (7 : UInt64) ≠ 0xFFFFFFFFFFFFFFFF := by decide
example : OptUsize.unwrap (OptUsize.some 7) = .ok 7 := rfl

/-- C40.  `none()` behaves as `None` under every operation. -/
theorem C40_none :
    OptUsize.isSome OptUsize.none = (none : Option UInt64).isSome ∧
    OptUsize.isNone OptUsize.none = (none : Option UInt64).isNone ∧
    OptUsize.unwrap OptUsize.none = .error .optionUsizeNone ∧
    (∀ d, OptUsize.unwrapOr OptUsize.none d = (none : Option UInt64).getD d) ∧
    (∀ {α : Type} (f : UInt64 → Option α), OptUsize.map OptUsize.none f = (none : Option UInt64).bind f) := by
  refine ⟨?_, ?_, ?_, ?_, ?_⟩ <;>
    simp [OptUsize.isSome, OptUsize.isNone, OptUsize.unwrap, OptUsize.unwrapOr, OptUsize.map,
      OptUsize.none, OptUsize.usizeMax]

/-- C40.  `some` is injective, and the sentinel is the only value it confuses with `none`. -/
theorem C40_sentinel (v w : UInt64) :
    (OptUsize.some v = OptUsize.none ↔ v = 0xFFFFFFFFFFFFFFFF) ∧
    (OptUsize.some v = OptUsize.some w ↔ v = w) := by
  simp [OptUsize.some, OptUsize.none, OptUsize.usizeMax]

example : OptUsize.some 0xFFFFFFFFFFFFFFFF = OptUsize.none := by decide

/-- C41.  `matches` is membership of the character. -/
theorem C41_matches (m : Match) (c : Char) : m.matchesC c = true ↔ Mem c.toNat m := by
  simp [Match.matchesC, Mem]

/-- C41.  `contains_u32` is membership of the code point. -/
theorem C41_contains (m : Match) (c : Nat) : m.containsU32 c = true ↔ Mem c m := by
  simp [Match.containsU32, Mem]

/-- C41.  A one-character match contains exactly that character. -/
theorem C41_char (c d : Char) : (Match.char c.toNat).matchesC d = true ↔ c = d := by
  simp only [C41_matches, Mem, Match.char]
  constructor
  · intro h
    have : c.toNat = d.toNat := by omega
    exact Char.toNat_inj.mp this
  · rintro rfl; omega

/-- C41.  `intersects` is non-emptiness of the intersection. -/
theorem C41_intersects (a b : Match) : a.intersects b = true ↔ ∃ c, Mem c a ∧ Mem c b :=
  Overlap.intersects_iff

/-- C41.  `is_disjoint` is emptiness of the intersection. -/
theorem C41_isDisjoint (a b : Match) : a.isDisjoint b = true ↔ Disjoint a b :=
  Overlap.isDisjoint_iff

/-- C41.  `cmp` is consistent with equality, antisymmetric and transitive. -/
theorem C41_compare :
    (∀ a b : Match, a.compare b = .eq ↔ a = b) ∧
    (∀ a b : Match, a.compare b = .lt ↔ b.compare a = .gt) ∧
    (∀ a b c : Match, a.compare b = .lt → b.compare c = .lt → a.compare c = .lt) := by
  have key : ∀ a b : Match, a.compare b =
      if a.lo < b.lo then .lt else if b.lo < a.lo then .gt else
      if a.hi < b.hi then .lt else if b.hi < a.hi then .gt else .eq := by
    intro a b
    simp only [Match.compare, Nat.compare_eq_ite_lt]
    repeat' split
    all_goals simp_all
    all_goals omega
  refine ⟨?_, ?_, ?_⟩
  · intro a b
    rw [key]
    obtain ⟨al, ah⟩ := a; obtain ⟨bl, bh⟩ := b
    simp only [Match.mk.injEq]
    repeat' split
    all_goals simp
    all_goals omega
  · intro a b
    rw [key, key]
    repeat' split
    all_goals simp
    all_goals omega
  · intro a b c
    rw [key, key, key]
    repeat' split
    all_goals simp
    all_goals omega

example : Match.intersects ⟨97, 100⟩ ⟨99, 120⟩ = true := by decide
example : Match.compare ⟨97, 100⟩ ⟨97, 120⟩ = .lt := by decide

end Verif.Props
