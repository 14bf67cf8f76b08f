import Verif.Model.Parse

/-! # The debug build of src/lalr

`ItemSet::union` has an assertion that only debug builds execute (src/lalr/item.rs:169).
`Verif.Model.Item` and `Verif.Model.Table` model the release build; the functions through which the
assertion is reached are repeated here with it. -/

namespace Verif

/-- `union` with its assertion (src/lalr/item.rs:168-174). -/
def ItemSet.unionDebug (a b : ItemSet) : Res ItemSet :=
  if a.length = b.length then ItemSet.union a b else .error .assertFailed

namespace Lalr
open ItemSet

/-- The loop src/lalr/table.rs:263-276, in a debug build. -/
def mergeRestDebug (sets : List ItemSet) : List Nat → ItemSet → List Bool → Res (ItemSet × List Bool)
  | [], acc, pres => .ok (acc, pres)
  | i :: is, acc, pres => do
    let (s, pres) ← takeSet sets pres i
    let acc ← unionDebug acc s
    mergeRestDebug sets is acc pres

/-- `merge_sets_with_same_core` (src/lalr/table.rs:244-279), in a debug build. -/
def mergeGroupDebug (sets : List ItemSet) (indices : List Nat) (pres : List Bool) : Res (ItemSet × List Bool) :=
  match indices with
  | [] => .error .dropped
  | i :: is => do
    let (s, pres) ← takeSet sets pres i
    mergeRestDebug sets is s pres

section
variable {H : Type} [DecidableEq H] (hash : List Item → H)

/-- The loop src/lalr/table.rs:230-239, in a debug build. -/
def mergeLoopDebug (sets : List ItemSet) : List (H × List Nat) → List Bool → List ItemSet →
    List (Nat × Nat) → Res (List ItemSet × List (Nat × Nat))
  | [], _, res, m => .ok (res, m)
  | (_, is) :: gs, pres, res, m => do
    let m := is.foldl (fun m i => minsert i res.length m) m
    let (s, pres) ← mergeGroupDebug sets is pres
    mergeLoopDebug sets gs pres (iinsert s res) m

/-- `merge_cores` (src/lalr/table.rs:211-242), in a debug build. -/
def mergeCoresDebug (sets : List ItemSet) : Res (List ItemSet × List (Nat × Nat)) :=
  mergeLoopDebug sets (groupLoop hash 0 sets []) (List.replicate sets.length true) [] []

/-- `make_tables` (src/lalr/table.rs:75-87), in a debug build. -/
def makeTablesDebug (g : Grammar) (depth : Nat) : Res (Table Nat Action × Table Str Nat × List ItemSet) := do
  let lr ← items g depth
  let (lalr, m) ← mergeCoresDebug hash lr
  let (a, t) ← makeLalrTables g depth lalr lr m
  return (a, t, lalr)

/-- `Lalr::new` (src/lalr.rs:30-42), in a debug build. -/
def newDebug (rx : Str → Option Hir) (ord : Nfa.Order) (g : Grammar) : Res Lalr := do
  let lexer ← g.lexer rx ord
  let (a, t, s) ← makeTablesDebug hash g (depthOf g)
  return { grammar := g, lexer := lexer, action := a, goto := t, states := s }

end
end Lalr
end Verif
