import Verif.Model.Prelude

/-! # Cells written one after the other -/

namespace Verif.Spec

/-- A write: row, column and value. -/
abbrev Write (κ ν : Type) := Nat × κ × ν

/-- `w` is the last of the writes into the cell at row `i` and column `k`. -/
def LastWrite {κ ν : Type} (ws : List (Write κ ν)) (i : Nat) (k : κ) (v : ν) : Prop :=
  ∃ before after, ws = before ++ (i, k, v) :: after ∧ ∀ w ∈ after, ¬ (w.1 = i ∧ w.2.1 = k)

/-- Each column of row `i` that was written once, in ascending order. -/
def Columns {κ ν : Type} [BOrd κ] (ws : List (Write κ ν)) (i : Nat) (ks : List κ) : Prop :=
  ks.Pairwise (fun a b => blt a b = true) ∧ ∀ k, k ∈ ks ↔ ∃ v, (i, k, v) ∈ ws

end Verif.Spec
