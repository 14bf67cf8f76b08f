import Verif.Proofs.TsUtilOk

/-! # Property C39: type-level arithmetic

`max` is the argument of `gen_arithmetic`: the tables cover the numbers up to it. -/

namespace Verif.Props
open Verif

/-- C39, numbers: on numbers covered by the tables the type-level functions
compute successor, predecessor (0 at 0), the comparisons, sum and (truncated)
difference. -/
theorem C39_arithmetic (max : Nat) :
    (∀ n, n < max → Ts.succ max (some n) = some (n + 1)) ∧
    (∀ n, n ≤ max → Ts.pred max (some n) = some (n - 1)) ∧
    (∀ a b, a ≤ max → b ≤ max →
      Ts.eq (some a) (some b) = some (decide (a = b)) ∧
      Ts.gt max (some a) (some b) = some (decide (a > b)) ∧
      Ts.gte max (some a) (some b) = some (decide (a ≥ b)) ∧
      Ts.lt max (some a) (some b) = some (decide (a < b)) ∧
      Ts.lte max (some a) (some b) = some (decide (a ≤ b)) ∧
      Ts.sub max (some a) (some b) = some (a - b)) ∧
    (∀ a b, a + b ≤ max → Ts.add max (some a) (some b) = some (a + b)) :=
  ⟨fun _ h => Ts.succ_ok h, fun _ h => Ts.pred_ok h,
   fun a b ha hb => ⟨Ts.eq_ok a b, Ts.gt_ok ha hb, Ts.gte_ok ha hb, Ts.lt_ok ha hb, Ts.lte_ok ha hb,
     Ts.sub_ok ha hb⟩,
   fun _ _ h => Ts.add_ok h⟩

/-- Concrete case: the table of size 5000 and the numbers 70 and 4930. -/
example : (70 < 5000 ∧ 4930 ≤ 5000 ∧ 70 + 4930 ≤ 5000) ∧
    Ts.add 5000 (some 4930) (some 70) = some 5000 ∧ Ts.lt 5000 (some 70) (some 71) = some true ∧
    Ts.sub 5000 (some 30) (some 70) = some 0 :=
  ⟨by omega, by decide +kernel, by decide +kernel, by decide +kernel⟩

/-- What happens at the edge of the tables: the successor of the last number is
`never`, and a positive number compared with one beyond the tables is `never`. -/
theorem C39_edge (max : Nat) : Ts.succ max (some max) = none ∧
    ∀ a b, 0 < a → a ≤ max → max < b → Ts.gte max (some a) (some b) = none ∧
      Ts.lt max (some a) (some b) = none := by
  refine ⟨by rw [Ts.succ_some, if_neg (by omega)], fun a b h0 ha hb => ?_⟩
  have hne : a ≠ b := by omega
  constructor
  · unfold Ts.gte Ts.extendsNum
    simp only [Option.some.injEq, hne, decide_false]
    exact Ts.gtImpl_beyond h0 hb
  · unfold Ts.lt Ts.extendsNum
    simp only [Option.some.injEq, hne, decide_false]
    rw [Ts.gtImpl_beyond h0 hb]; rfl

example : Ts.gte 5000 (some 40) (some 8192) = none := (C39_edge 5000).2 40 8192 (by omega) (by omega) (by omega) |>.1

/-- C39, lists and strings: `Reverse` reverses; `Substring` is the text between
two positions (`undefined` when it would start after the end); `PopNStack` drops
the first `n` elements and `PopNStackWithValue` also returns them, last popped
first; popping more than there is gives `never`. -/
theorem C39_lists (max : Nat) {α : Type} :
    (∀ l : List α, Ts.reverse l = l.reverse) ∧
    (∀ (s : Str) (start stop : Nat), start ≤ stop → stop ≤ max →
      Ts.substring max s (some start) (some stop) =
        if start ≤ s.length then .val ((s.drop start).take (stop - start)) else .undefined) ∧
    (∀ (l : List α) (n : Nat), n ≤ max →
      Ts.popNStack max l (some n) = (if n ≤ l.length then some (l.drop n) else none) ∧
      Ts.popNStackWithValue max l (some n) =
        (if n ≤ l.length then some (l.drop n, (l.take n).reverse) else none)) :=
  ⟨Ts.reverse_eq, fun s _ _ h hm => Ts.substring_ok s h hm,
   fun l n h => ⟨Ts.popNStack_ok n l h, Ts.popWith_ok n l h⟩⟩

/-- Concrete case. -/
example : Ts.substring 5000 "let x".toList (some 1) (some 3) = .val "et".toList ∧
    Ts.popNStackWithValue 5000 ["c", "b", "a"] (some 2) = some (["a"], ["b", "c"]) ∧
    Ts.reverse [1, 2, 3] = [3, 2, 1] :=
  ⟨by decide +kernel, by decide +kernel, by decide +kernel⟩

end Verif.Props
