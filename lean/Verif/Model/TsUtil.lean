import Verif.Model.Prelude

/-! # ts/util.ts and the tables of `gen_arithmetic`

Type-level functions are modelled as functions on the literals they are applied
to.  A number literal type is `some n`, the type `never` is `none`: a conditional
type whose checked parameter is `never` is `never` (distribution over the empty
union).  The limits of the TypeScript compiler on instantiation depth are not
modelled. -/

namespace Verif.Ts

/-- `SuccTable`, as written by `gen_arithmetic` (src/codegen/lex_gen.rs:323-328). -/
def succTable (max : Nat) : List (Nat × Nat) := (List.range max).map fun i => (i, i + 1)

/-- `PredTable`, as written by `gen_arithmetic` (src/codegen/lex_gen.rs:330-335). -/
def predTable (max : Nat) : List (Nat × Nat) := (List.range max).map fun i => (i + 1, i)

/-- `Succ` (ts/util.ts:53). -/
def succ (max : Nat) : Option Nat → Option Nat
  | none => none
  | some n => mget n (succTable max)

/-- `Pred` (ts/util.ts:54-58). -/
def pred (max : Nat) : Option Nat → Option Nat
  | none => none
  | some 0 => some 0
  | some n => mget n (predTable max)

/-- `Negate` (ts/util.ts:5). -/
def negate : Option Bool → Option Bool
  | none => none
  | some true => some false
  | some false => some true

/-- `Reverse`, `ReverseImpl` (ts/util.ts:7-14). -/
def reverseImpl {α : Type} : List α → List α → List α
  | [], st => st
  | a :: b, st => reverseImpl b (a :: st)

/-- `Reverse` (ts/util.ts:7). -/
def reverse {α : Type} (l : List α) : List α := reverseImpl l []

/-- `IsWhitespace` (ts/util.ts:20-22). -/
def isWhitespace (c : Char) : Bool := c == ' ' || c == '\n'

/-- The string-valued results of `Substring` (ts/util.ts:24-50). -/
inductive Text where
  | val (s : Str)
  | undefined
  | never
deriving DecidableEq, Repr

/-- `CutString` (ts/util.ts:41-50). -/
def cutString (max : Nat) : Str → Str → Option Nat → Option Nat → Text
  | str, ret, len, i =>
    match i with
    | none => .never
    | some n =>
      if some n = len then .val ret
      else
        match str with
        | [] => .val ret
        | c :: rest => cutString max rest (ret ++ [c]) len (succ max i)

/-- `SubstringImpl` (ts/util.ts:30-39). -/
def substringImpl (max : Nat) : Str → Option Nat → Option Nat → Option Nat → Text
  | str, start, stop, i =>
    match i with
    | none => .never
    | some n =>
      if some n = start then cutString max str [] stop (some 0)
      else
        match str with
        | [] => .undefined
        | _ :: rest => substringImpl max rest start (pred max stop) (succ max i)

/-- `Substring` (ts/util.ts:24-28). -/
def substring (max : Nat) (str : Str) (start stop : Option Nat) : Text :=
  substringImpl max str start stop (some 0)

/-- `A extends B` for number literals, distributing over `A` (as in `Eq`,
ts/util.ts:52): `never` when `A` is; nothing extends `never`. -/
def extendsNum (a b : Option Nat) : Option Bool :=
  match a with
  | none => none
  | some _ => some (decide (a = b))

/-- `Eq` (ts/util.ts:52). -/
def eq (a b : Option Nat) : Option Bool := extendsNum a b

/-- Used for the termination of `gtImpl`, `add`, `sub` (ts/util.ts:54-58). -/
theorem pred_lt (max b : Nat) : (pred max (some (b + 1))).getD 0 < b + 1 := by
  simp only [pred, predTable]
  have : ∀ l : List Nat, (mget (b + 1) (l.map fun i => (i + 1, i))).getD 0 < b + 1 := by
    intro l
    induction l with
    | nil => simp [mget]
    | cons i l ih =>
      simp only [List.map_cons, mget]
      by_cases h : b + 1 = i + 1
      · rw [if_pos h]; simp; omega
      · rw [if_neg h]; exact ih
  exact this _

/-- `GtImpl` (ts/util.ts:75-79). -/
def gtImpl (max : Nat) (a b : Option Nat) : Option Bool :=
  match b with
  | none => none
  | some 0 => some true
  | some (b + 1) =>
    match a with
    | none => none
    | some 0 => some false
    | some (a + 1) => gtImpl max (pred max (some (a + 1))) (pred max (some (b + 1)))
termination_by b.getD 0
decreasing_by exact pred_lt max b

/-- `Gte` (ts/util.ts:60-62). -/
def gte (max : Nat) (a b : Option Nat) : Option Bool :=
  match extendsNum a b with
  | none => none
  | some true => some true
  | some false => gtImpl max a b

/-- `Gt` (ts/util.ts:63-65). -/
def gt (max : Nat) (a b : Option Nat) : Option Bool :=
  match extendsNum a b with
  | none => none
  | some true => some false
  | some false => gtImpl max a b

/-- `Lte` (ts/util.ts:67-69). -/
def lte (max : Nat) (a b : Option Nat) : Option Bool :=
  match extendsNum a b with
  | none => none
  | some true => some true
  | some false => negate (gtImpl max a b)

/-- `Lt` (ts/util.ts:70-72). -/
def lt (max : Nat) (a b : Option Nat) : Option Bool :=
  match extendsNum a b with
  | none => none
  | some true => some false
  | some false => negate (gtImpl max a b)

/-- `Add` (ts/util.ts:81-83). -/
def add (max : Nat) (a b : Option Nat) : Option Nat :=
  match b with
  | none => none
  | some 0 => a
  | some (b + 1) => add max (succ max a) (pred max (some (b + 1)))
termination_by b.getD 0
decreasing_by exact pred_lt max b

/-- `Sub` (ts/util.ts:85-87). -/
def sub (max : Nat) (a b : Option Nat) : Option Nat :=
  match b with
  | none => none
  | some 0 => a
  | some (b + 1) => sub max (pred max a) (pred max (some (b + 1)))
termination_by b.getD 0
decreasing_by exact pred_lt max b

/-- `PopNStack` (ts/util.ts:89-93). -/
def popNStack {α : Type} (max : Nat) : List α → Option Nat → Option (List α)
  | arr, n =>
    match n with
    | none => none
    | some 0 => some arr
    | some (n + 1) =>
      match arr with
      | [] => none
      | _ :: tail => popNStack max tail (pred max (some (n + 1)))

/-- `PopNStackWithValueImpl` (ts/util.ts:99-107). -/
def popNStackWithValueImpl {α : Type} (max : Nat) :
    List α → Option Nat → List α → Option (List α × List α)
  | arr, n, ret =>
    match n with
    | none => none
    | some 0 => some (arr, ret)
    | some (n + 1) =>
      match arr with
      | [] => none
      | head :: tail => popNStackWithValueImpl max tail (pred max (some (n + 1))) (head :: ret)

/-- `PopNStackWithValue` (ts/util.ts:95-98). -/
def popNStackWithValue {α : Type} (max : Nat) (arr : List α) (n : Option Nat) :
    Option (List α × List α) := popNStackWithValueImpl max arr n []

end Verif.Ts
