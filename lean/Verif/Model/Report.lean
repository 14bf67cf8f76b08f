import Verif.Model.Parse

/-! # The list of valid tokens in the parser's error message (src/lalr.rs, src/lalr/table.rs) -/

namespace Verif

/-- `Table::valid` (src/lalr/table.rs:41-43): the keys of a row in ascending order, nothing if there is no row. -/
def Table.valid {κ ν : Type} (t : Table κ ν) (i : Nat) : Option (List κ) := (mget i t).map fun row => row.map Prod.fst

/-- `self.action.valid(s)` in the message of the panic (src/lalr.rs:147-153), `s` the top of the stack
(src/lalr.rs:92).  Simplification: the numbers of the tokens instead of what `TokenDebug` prints for them. -/
def Lalr.reported (action : Table Nat Action) (st : Lalr.PState) : Option (List Nat) :=
  match st.stack with
  | [] => none
  | s :: _ => action.valid s

end Verif
