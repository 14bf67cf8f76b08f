import Verif.Model.Report

/-! # The remaining operations of `Table` (src/lalr/table.rs) -/

namespace Verif

/-- `std::collections::btree_map::Entry`, as matched at src/lalr/table.rs:53-59.  Simplification: the value stored in an
occupied cell instead of a borrow of it. -/
inductive Entry (ν : Type) where
  | vacant
  | occupied (v : ν)

namespace Table
variable {κ ν : Type} [BOrd κ] [DecidableEq κ]

/-- `empty` (src/lalr/table.rs:31-33). -/
def empty : Table κ ν := []

/-- `entry` (src/lalr/table.rs:45-50): the row is created if it is missing, even if nothing is inserted afterwards. -/
def entry (t : Table κ ν) (i : Nat) (k : κ) : Table κ ν × Entry ν :=
  let row := (mget i t).getD []
  (minsert i row t, match mget k row with
    | some v => .occupied v
    | none => .vacant)

/-- `insert` (src/lalr/table.rs:52-60) with its answer: the value that was there before. -/
def insertOld (t : Table κ ν) (i : Nat) (k : κ) (v : ν) : Table κ ν × Option ν :=
  match t.entry i k with
  | (t, .vacant) => (t.insert i k v, none)
  | (t, .occupied old) => (t.insert i k v, some old)

end Table

end Verif
