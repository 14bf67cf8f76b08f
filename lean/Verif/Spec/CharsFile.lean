import Mathlib.Data.List.Forall2
import Verif.Model.Prelude

/-! # Specification: the list of characters in chars.ts -/

namespace Verif.Spec
open Verif

/-- Characters that cannot be seen. -/
def Invisible (n : Nat) : Prop :=
  (9 ≤ n ∧ n ≤ 13) ∨ n = 32 ∨ n = 127 ∨ n = 160 ∨ n = 173 ∨ n = 847 ∨ n = 1564 ∨ n = 4447 ∨ n = 4448 ∨ n = 6068 ∨ n = 6069 ∨
  (6155 ≤ n ∧ n ≤ 6158) ∨ n = 7355 ∨ n = 7356 ∨ (8192 ≤ n ∧ n ≤ 8207) ∨ (8234 ≤ n ∧ n ≤ 8239) ∨ (8287 ≤ n ∧ n ≤ 8303) ∨
  n = 10240 ∨ n = 12288 ∨ n = 12644 ∨ (65024 ≤ n ∧ n ≤ 65039) ∨ n = 65279 ∨ n = 65440 ∨ (65520 ≤ n ∧ n ≤ 65528) ∨ n = 65532 ∨
  n = 78844 ∨ (119155 ≤ n ∧ n ≤ 119162) ∨ (917504 ≤ n ∧ n ≤ 917631) ∨ (917760 ≤ n ∧ n ≤ 917999)

/-- A character as a string in TypeScript. -/
inductive Quoted : Nat → Str → Prop
  | quote : Quoted 34 ['"', '\\', '"', '"']
  | backslash : Quoted 92 ['"', '\\', '\\', '"']
  | other {n} : n ≠ 34 → n ≠ 92 → Quoted n ['"', Char.ofNat n, '"']

/-- The text is the declaration of the tuple of these characters, one on each line. -/
def ListsChars (ns : List Nat) (t : Str) : Prop :=
  ∃ ws, List.Forall₂ Quoted ns ws ∧ t = "type Characters = [".toList ++ ws.flatMap (fun w => '\n' :: w ++ [',']) ++ [']']

end Verif.Spec
