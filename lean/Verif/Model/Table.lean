import Verif.Model.Item

/-! # src/lalr/table.rs -/

namespace Verif

/-- `Action` (src/lalr/table.rs:14-20). -/
inductive Action where
  | shift (s : Nat)
  | reduce (p : Nat)
  | accept
deriving DecidableEq, Repr

/-- `Table<K, V>` (src/lalr/table.rs:22-28): nested sorted maps. -/
abbrev Table (κ ν : Type) := List (Nat × List (κ × ν))

namespace Table
variable {κ ν : Type} [BOrd κ] [DecidableEq κ]

/-- `try_index` (src/lalr/table.rs:34-39). -/
def tryIndex (t : Table κ ν) (i : Nat) (k : κ) : Option ν :=
  match mget i t with
  | some inner => mget k inner
  | none => none

/-- `entry` (src/lalr/table.rs:45-50) followed by inserting into it
(`Entry::insert`) or `insert` (52-60): creates the row if needed. -/
def insert (t : Table κ ν) (i : Nat) (k : κ) (v : ν) : Table κ ν :=
  match mget i t with
  | some inner => minsert i (minsert k v inner) t
  | none => minsert i [(k, v)] t
end Table

namespace Lalr
open ItemSet

/-- `lr_sets.get_index_of(&set)` (src/lalr/table.rs:109,112,181,188). -/
def indexOf (sets : List ItemSet) (s : ItemSet) : Option Nat := sets.findIdx? fun t => decide (t = s)

/-- `compute_goto` (src/lalr/table.rs:99-116). -/
def computeGoto (g : Grammar) (depth : Nat) (lalr lr : List ItemSet) (lrToLalr : List (Nat × Nat))
    (set : ItemSet) (x : Sym) : Res (Option Nat) := do
  let t ← goto g depth set x
  match indexOf lr t with
  | none => return indexOf lalr t
  | some i => return mget i lrToLalr

/-- `match action.entry(..) { Vacant => insert, Occupied => panic }`
(src/lalr/table.rs:138-141, 152-162, 167-170). -/
def claim (t : Table Nat Action) (i : Nat) (k : Nat) (a : Action) : Res (Table Nat Action) :=
  match t.tryIndex i k with
  | none => .ok (t.insert i k a)
  | some _ => .error .conflict

/-- The loop over lookaheads of a completed item (src/lalr/table.rs:147-171). -/
def reduceLoop (i : Nat) (item : Item) : List Nat → Table Nat Action → Res (Table Nat Action)
  | [], t => .ok t
  | la :: las, t => do
    let t ←
      if la = Lex.EOF_IDX ∧ item.1 = 0 then claim t i Lex.EOF_IDX .accept
      else claim t i la (.reduce item.1)
    reduceLoop i item las t

/-- Body of the loop over items (src/lalr/table.rs:119-172). -/
def actionItem (g : Grammar) (depth : Nat) (lalr lr : List ItemSet) (lrToLalr : List (Nat × Nat))
    (i : Nat) (set : ItemSet) (e : Item × List Nat) (t : Table Nat Action) :
    Res (Table Nat Action) :=
  match dotToken g e.1 with
  | some x =>
    if x.isTerminal then
      match g.getTokenIdx x with
      | none => .error .undefinedToken
      | some k => do
        match ← computeGoto g depth lalr lr lrToLalr set x with
        | none => return t
        | some j => claim t i k (.shift j)
    else .ok t
  | none => reduceLoop i e.1 e.2 t

/-- The loop over the items of one state (src/lalr/table.rs:119-172). -/
def actionItems (g : Grammar) (depth : Nat) (lalr lr : List ItemSet) (lrToLalr : List (Nat × Nat))
    (i : Nat) (set : ItemSet) : List (Item × List Nat) → Table Nat Action → Res (Table Nat Action)
  | [], t => .ok t
  | e :: es, t => do
    let t ← actionItem g depth lalr lr lrToLalr i set e t
    actionItems g depth lalr lr lrToLalr i set es t

/-- The loop over states (src/lalr/table.rs:118-173). -/
def actionStates (g : Grammar) (depth : Nat) (lalr lr : List ItemSet) (lrToLalr : List (Nat × Nat)) :
    Nat → List ItemSet → Table Nat Action → Res (Table Nat Action)
  | _, [], t => .ok t
  | i, s :: ss, t => do
    let t ← actionItems g depth lalr lr lrToLalr i s s t
    actionStates g depth lalr lr lrToLalr (i + 1) ss t

/-- The loop over nonterminals (src/lalr/table.rs:176-195); the `expect("LR -> LALR")`
at 185 is `Err.unwrapNone`. -/
def gotoRow (g : Grammar) (depth : Nat) (lalr lr : List ItemSet) (lrToLalr : List (Nat × Nat))
    (i : Nat) (set : ItemSet) : List Str → Table Str Nat → Res (Table Str Nat)
  | [], t => .ok t
  | a :: as, t => do
    let s ← goto g depth set (.nonTerm a)
    match indexOf lr s with
    | some j =>
      match mget j lrToLalr with
      | some k => gotoRow g depth lalr lr lrToLalr i set as (t.insert i a k)
      | none => .error .unwrapNone
    | none =>
      match indexOf lalr s with
      | some j => gotoRow g depth lalr lr lrToLalr i set as (t.insert i a j)
      | none => gotoRow g depth lalr lr lrToLalr i set as t

/-- The loop over states (src/lalr/table.rs:175-196). -/
def gotoStates (g : Grammar) (depth : Nat) (lalr lr : List ItemSet) (lrToLalr : List (Nat × Nat)) :
    Nat → List ItemSet → Table Str Nat → Res (Table Str Nat)
  | _, [], t => .ok t
  | i, s :: ss, t => do
    let t ← gotoRow g depth lalr lr lrToLalr i s g.nonTerminals t
    gotoStates g depth lalr lr lrToLalr (i + 1) ss t

/-- `make_lalr_tables` (src/lalr/table.rs:89-199). -/
def makeLalrTables (g : Grammar) (depth : Nat) (lalr lr : List ItemSet)
    (lrToLalr : List (Nat × Nat)) : Res (Table Nat Action × Table Str Nat) := do
  let a ← actionStates g depth lalr lr lrToLalr 0 lalr []
  let t ← gotoStates g depth lalr lr lrToLalr 0 lalr []
  return (a, t)

section Merge
variable {H : Type} [DecidableEq H] (hash : List Item → H)

/-- `core_hash_to_index.entry(h).or_insert_with(Vec::new).push(i)`
(src/lalr/table.rs:215-220), an `IndexMap` in insertion order. -/
def groupAdd (h : H) (i : Nat) : List (H × List Nat) → List (H × List Nat)
  | [] => [(h, [i])]
  | (h', is) :: rest => if h = h' then (h', is ++ [i]) :: rest else (h', is) :: groupAdd h i rest

/-- The loop src/lalr/table.rs:215-220.  `hash` is `core_hash` as a function of the
core (src/lalr/item.rs:153-163): any function here, the real one is `Hash.coreHash`. -/
def groupLoop : Nat → List ItemSet → List (H × List Nat) → List (H × List Nat)
  | _, [], m => m
  | i, s :: ss, m => groupLoop (i + 1) ss (groupAdd (hash (core s)) i m)

/-- Reading one set out of the vector with the presence check
(src/lalr/table.rs:251-261, 264-274).  Simplification: `ManuallyDrop::take` is a
read; a second read of the same index is the panic. -/
def takeSet (sets : List ItemSet) (presence : List Bool) (i : Nat) : Res (ItemSet × List Bool) :=
  if presence.getD i false then .ok (sets.getD i [], presence.set i false)
  else .error .dropped

/-- The loop src/lalr/table.rs:263-276. -/
def mergeRest (sets : List ItemSet) : List Nat → ItemSet → List Bool → Res (ItemSet × List Bool)
  | [], acc, pres => .ok (acc, pres)
  | i :: is, acc, pres => do
    let (s, pres) ← takeSet sets pres i
    let acc ← union acc s
    mergeRest sets is acc pres

/-- `merge_sets_with_same_core` (src/lalr/table.rs:244-279). -/
def mergeGroup (sets : List ItemSet) (indices : List Nat) (pres : List Bool) :
    Res (ItemSet × List Bool) :=
  match indices with
  | [] => .error .dropped
  | i :: is => do
    let (s, pres) ← takeSet sets pres i
    mergeRest sets is s pres

/-- The loop src/lalr/table.rs:230-239. -/
def mergeLoop (sets : List ItemSet) : List (H × List Nat) → List Bool → List ItemSet →
    List (Nat × Nat) → Res (List ItemSet × List (Nat × Nat))
  | [], _, res, m => .ok (res, m)
  | (_, is) :: gs, pres, res, m => do
    let m := is.foldl (fun m i => minsert i res.length m) m
    let (s, pres) ← mergeGroup sets is pres
    mergeLoop sets gs pres (iinsert s res) m

/-- `merge_cores` (src/lalr/table.rs:211-242). -/
def mergeCores (sets : List ItemSet) : Res (List ItemSet × List (Nat × Nat)) :=
  mergeLoop sets (groupLoop hash 0 sets []) (List.replicate sets.length true) [] []

/-- `make_tables` (src/lalr/table.rs:75-87): action, goto, states. -/
def makeTables (g : Grammar) (depth : Nat) :
    Res (Table Nat Action × Table Str Nat × List ItemSet) := do
  let lr ← items g depth
  let (lalr, m) ← mergeCores hash lr
  let (a, t) ← makeLalrTables g depth lalr lr m
  return (a, t, lalr)

end Merge
end Lalr
end Verif
