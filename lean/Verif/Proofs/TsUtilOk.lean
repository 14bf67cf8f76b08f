import Verif.Model.TsUtil

/-! Facts about the type-level arithmetic of ts/util.ts. -/

namespace Verif.Ts

theorem mget_map_range (k : Nat → Nat) (v : Nat → Nat) (hk : ∀ i j, k i = k j → i = j) (n i : Nat) :
    mget (k i) ((List.range n).map fun i => (k i, v i)) = if i < n then some (v i) else none := by
  have key : ∀ l : List Nat, mget (k i) (l.map fun i => (k i, v i)) = if i ∈ l then some (v i) else none := by
    intro l
    induction l with
    | nil => simp [mget]
    | cons j l ih =>
      simp only [List.map_cons, mget]
      by_cases h : k i = k j
      · have := hk _ _ h
        subst this
        simp
      · rw [if_neg h, ih]
        have : i ≠ j := fun e => h (by rw [e])
        simp [this]
  rw [key]; simp

theorem succ_some (max n : Nat) : succ max (some n) = if n < max then some (n + 1) else none :=
  mget_map_range (fun i => i) (fun i => i + 1) (fun _ _ h => h) max n

theorem pred_succ (max n : Nat) : pred max (some (n + 1)) = if n < max then some n else none :=
  mget_map_range (fun i => i + 1) (fun i => i) (fun _ _ h => by omega) max n

theorem succ_ok {max n : Nat} (h : n < max) : succ max (some n) = some (n + 1) := by
  rw [succ_some, if_pos h]

theorem pred_ok {max n : Nat} (h : n ≤ max) : pred max (some n) = some (n - 1) := by
  cases n with
  | zero => rfl
  | succ n => rw [pred_succ, if_pos (by omega)]; rfl

theorem gtImpl_ok {max : Nat} : ∀ {a b : Nat}, a ≤ max → b ≤ max → a ≠ b →
    gtImpl max (some a) (some b) = some (decide (b < a))
  | a, 0, _, _, h => by
    unfold gtImpl; simp; omega
  | 0, b + 1, _, _, _ => by unfold gtImpl; simp
  | a + 1, b + 1, ha, hb, h => by
    unfold gtImpl
    simp only
    rw [pred_ok ha, pred_ok hb]
    simp only [Nat.add_sub_cancel]
    rw [gtImpl_ok (by omega) (by omega) (by omega)]
    simp

/-- A bound beyond the table makes the comparison `never`. -/
theorem gtImpl_beyond {max a b : Nat} (ha : 0 < a) (hb : max < b) :
    gtImpl max (some a) (some b) = none := by
  obtain ⟨a, rfl⟩ : ∃ x, a = x + 1 := ⟨a - 1, by omega⟩
  obtain ⟨b, rfl⟩ : ∃ x, b = x + 1 := ⟨b - 1, by omega⟩
  unfold gtImpl
  simp only
  rw [pred_succ max b, if_neg (by omega)]
  unfold gtImpl
  rfl

theorem eq_ok (a b : Nat) : eq (some a) (some b) = some (decide (a = b)) := by
  simp [eq, extendsNum]

theorem gte_ok {max a b : Nat} (ha : a ≤ max) (hb : b ≤ max) :
    gte max (some a) (some b) = some (decide (b ≤ a)) := by
  unfold gte extendsNum
  by_cases h : a = b
  · subst h; simp
  · simp only [Option.some.injEq, h, decide_false]
    rw [gtImpl_ok ha hb h]
    simp; omega

theorem gt_ok {max a b : Nat} (ha : a ≤ max) (hb : b ≤ max) :
    gt max (some a) (some b) = some (decide (b < a)) := by
  unfold gt extendsNum
  by_cases h : a = b
  · subst h; simp
  · simp only [Option.some.injEq, h, decide_false]
    rw [gtImpl_ok ha hb h]

theorem negate_some (b : Bool) : negate (some b) = some (!b) := by cases b <;> rfl

theorem lte_ok {max a b : Nat} (ha : a ≤ max) (hb : b ≤ max) :
    lte max (some a) (some b) = some (decide (a ≤ b)) := by
  unfold lte extendsNum
  by_cases h : a = b
  · subst h; simp
  · simp only [Option.some.injEq, h, decide_false]
    rw [gtImpl_ok ha hb h, negate_some, ← decide_not]
    congr 1
    exact decide_eq_decide.mpr (by omega)

theorem lt_ok {max a b : Nat} (ha : a ≤ max) (hb : b ≤ max) :
    lt max (some a) (some b) = some (decide (a < b)) := by
  unfold lt extendsNum
  by_cases h : a = b
  · subst h; simp
  · simp only [Option.some.injEq, h, decide_false]
    rw [gtImpl_ok ha hb h, negate_some, ← decide_not]
    congr 1
    exact decide_eq_decide.mpr (by omega)

theorem add_ok {max : Nat} : ∀ {b a : Nat}, a + b ≤ max → add max (some a) (some b) = some (a + b)
  | 0, a, _ => by unfold add; rfl
  | b + 1, a, h => by
    unfold add
    rw [succ_ok (by omega), pred_ok (by omega), Nat.add_sub_cancel, add_ok (by omega)]
    congr 1; omega

theorem sub_ok {max : Nat} : ∀ {b a : Nat}, a ≤ max → b ≤ max → sub max (some a) (some b) = some (a - b)
  | 0, a, _, _ => by unfold sub; rfl
  | b + 1, a, ha, hb => by
    unfold sub
    rw [pred_ok ha, pred_ok hb, Nat.add_sub_cancel, sub_ok (by omega) (by omega)]
    congr 1; omega

theorem reverseImpl_eq {α : Type} : ∀ (l st : List α), reverseImpl l st = l.reverse ++ st
  | [], st => rfl
  | a :: l, st => by simp [reverseImpl, reverseImpl_eq l]

theorem reverse_eq {α : Type} (l : List α) : reverse l = l.reverse := by
  simp [reverse, reverseImpl_eq]

theorem cutString_ok {max : Nat} : ∀ (s ret : Str) (len i : Nat), i ≤ len → len ≤ max →
    cutString max s ret (some len) (some i) = .val (ret ++ s.take (len - i))
  | s, ret, len, i, h1, h2 => by
    unfold cutString
    simp only [Option.some.injEq]
    by_cases h : i = len
    · subst h; simp
    · rw [if_neg h]
      cases s with
      | nil => simp
      | cons c s =>
        simp only
        rw [succ_ok (by omega), cutString_ok s _ len (i + 1) (by omega) h2]
        rw [show len - i = (len - (i + 1)) + 1 from by omega]
        simp

theorem substringImpl_ok {max : Nat} : ∀ (s : Str) (start stop i : Nat), i ≤ start → start - i ≤ stop →
    stop ≤ max → start ≤ max →
    substringImpl max s (some start) (some stop) (some i) =
      if start - i ≤ s.length then .val ((s.drop (start - i)).take (stop - (start - i))) else .undefined
  | s, start, stop, i, h1, h2, h3, h4 => by
    unfold substringImpl
    simp only [Option.some.injEq]
    by_cases h : i = start
    · subst h
      rw [if_pos rfl, cutString_ok _ _ _ _ (by omega) h3]
      simp
    · rw [if_neg h]
      cases s with
      | nil => simp; omega
      | cons c s =>
        simp only
        rw [succ_ok (by omega), pred_ok h3,
          substringImpl_ok s start (stop - 1) (i + 1) (by omega) (by omega) (by omega) h4]
        obtain ⟨d, hd⟩ : ∃ d, start - i = d + 1 := ⟨start - i - 1, by omega⟩
        have : start - (i + 1) = d := by omega
        rw [this, hd]
        simp only [List.length_cons, Nat.add_le_add_iff_right, List.drop_succ_cons]
        rw [show stop - 1 - d = stop - (d + 1) from by omega]

theorem substring_ok {max : Nat} (s : Str) {start stop : Nat} (h : start ≤ stop) (hm : stop ≤ max) :
    substring max s (some start) (some stop) =
      if start ≤ s.length then .val ((s.drop start).take (stop - start)) else .undefined := by
  rw [substring, substringImpl_ok s start stop 0 (by omega) (by omega) hm (by omega)]
  simp

theorem popNStack_ok {α : Type} {max : Nat} : ∀ (n : Nat) (l : List α), n ≤ max →
    popNStack max l (some n) = if n ≤ l.length then some (l.drop n) else none
  | 0, l, _ => by unfold popNStack; simp
  | n + 1, [], _ => by unfold popNStack; simp
  | n + 1, a :: l, h => by
    unfold popNStack
    simp only
    rw [pred_ok h, Nat.add_sub_cancel, popNStack_ok n l (by omega)]
    simp

theorem popWithImpl_ok {α : Type} {max : Nat} : ∀ (n : Nat) (l ret : List α), n ≤ max →
    popNStackWithValueImpl max l (some n) ret =
      if n ≤ l.length then some (l.drop n, (l.take n).reverse ++ ret) else none
  | 0, l, _, _ => by unfold popNStackWithValueImpl; simp
  | n + 1, [], _, _ => by unfold popNStackWithValueImpl; simp
  | n + 1, a :: l, ret, h => by
    unfold popNStackWithValueImpl
    simp only
    rw [pred_ok h, Nat.add_sub_cancel, popWithImpl_ok n l _ (by omega)]
    simp

theorem popWith_ok {α : Type} {max : Nat} (n : Nat) (l : List α) (h : n ≤ max) :
    popNStackWithValue max l (some n) =
      if n ≤ l.length then some (l.drop n, (l.take n).reverse) else none := by
  simp [popNStackWithValue, popWithImpl_ok n l [] h]

end Verif.Ts
