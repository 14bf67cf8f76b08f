import Verif.Model.First

/-! # src/lalr/item.rs -/

namespace Verif

/-- `Item` (src/lalr/item.rs:28-29): production index and dot. -/
abbrev Item := Nat × Nat

/-- `ItemSet` (src/lalr/item.rs:37-38): sorted map from items to sorted lookahead
sets of token indices. -/
abbrev ItemSet := List (Item × List Nat)

/-- A Rust `for` loop body that may panic, collecting results (loops at
src/lalr/item.rs:225-248). -/
def mapRes {α β : Type} (f : α → Res β) : List α → Res (List β)
  | [] => .ok []
  | a :: as => do
    let b ← f a
    let bs ← mapRes f as
    return b :: bs

/-- Nested loops pushing to one vector (src/lalr/item.rs:225-248). -/
def flatMapRes {α β : Type} (f : α → Res (List β)) (l : List α) : Res (List β) := do
  let bs ← mapRes f l
  return bs.flatten

namespace ItemSet

/-- `Item::increment` (src/lalr/item.rs:71-74). -/
def incr (i : Item) : Item := (i.1, i.2 + 1)

/-- `Item::dot_token` (src/lalr/item.rs:80-83). -/
def dotToken (g : Grammar) (i : Item) : Option Sym := (g.prodAt i.1).inputs[i.2]?

/-- `Item::dot_production_name` (src/lalr/item.rs:91-99). -/
def dotName (g : Grammar) (i : Item) : Option Str := (dotToken g i).bind Sym.asNonTerminal

/-- `item.increment().iter(grammar)` (src/lalr/item.rs:102-107, 339-349): the
symbols after the symbol after the dot. -/
def beta (g : Grammar) (i : Item) : List Sym := (g.prodAt i.1).inputs.drop (i.2 + 1)

/-- `ItemSet::initial` (src/lalr/item.rs:177-183). -/
def initial : ItemSet := [((0, 0), [Lex.EOF_IDX])]

/-- Innermost loops of `closure` (src/lalr/item.rs:235-245): the pairs added for
one production and one lookahead. -/
def addsFor (g : Grammar) (depth : Nat) (item : Item) (p : Nat) (la : Nat) :
    Res (List (Item × Nat)) :=
  match g.getToken la with
  | none => .error .undefinedToken
  | some t => do
    let fs ← g.first depth (beta g item ++ [t])
    mapRes (fun s => match g.getTokenIdx s with
      | none => .error .undefinedToken
      | some i => .ok ((p, 0), i)) fs

/-- The loops src/lalr/item.rs:225-248: everything in `to_be_added`. -/
def closureAdds (g : Grammar) (depth : Nat) (set : ItemSet) : Res (List (Item × Nat)) :=
  flatMapRes (fun (e : Item × List Nat) =>
    match dotName g e.1 with
    | none => .ok []
    | some name => do
      let ps ← g.productionIter name
      flatMapRes (fun p => flatMapRes (fun la => addsFor g depth e.1 p la) e.2) ps) set

/-- The `entry` match src/lalr/item.rs:252-262; the flag is `added`. -/
def addOne (acc : ItemSet × Bool) (x : Item × Nat) : ItemSet × Bool :=
  match mget x.1 acc.1 with
  | none => (minsert x.1 [x.2] acc.1, true)
  | some las => if x.2 ∈ las then acc else (minsert x.1 (oinsert x.2 las) acc.1, true)

/-- The `loop` of `closure` (src/lalr/item.rs:223-269). -/
def closureLoop (g : Grammar) (depth : Nat) : Nat → ItemSet → Res ItemSet
  | fuel, set => do
    let adds ← closureAdds g depth set
    let (set', added) := adds.foldl addOne (set, false)
    if added then
      match fuel with
      | 0 => .error .outOfFuel
      | fuel + 1 => closureLoop g depth fuel set'
    else return set'

/-- `closure` (src/lalr/item.rs:221-270).  Fuel: every iteration but the last adds
a new pair of a production start and a token. -/
def closure (g : Grammar) (depth : Nat) (set : ItemSet) : Res ItemSet :=
  closureLoop g depth (g.prods.length * g.tokens.length) set

/-- The loop of `goto` (src/lalr/item.rs:274-293).  A key is created only when a
lookahead is inserted. -/
def advance (g : Grammar) (x : Sym) (set : ItemSet) : ItemSet :=
  set.foldl (fun j e =>
    if dotToken g e.1 = some x then
      e.2.foldl (fun j la =>
        match mget (incr e.1) j with
        | none => minsert (incr e.1) [la] j
        | some las => minsert (incr e.1) (oinsert la las) j) j
    else j) []

/-- `goto` (src/lalr/item.rs:273-300). -/
def goto (g : Grammar) (depth : Nat) (set : ItemSet) (x : Sym) : Res ItemSet :=
  closure g depth (advance g x set)

/-- The `for` loops of `items` (src/lalr/item.rs:199-206): `temp` in push order. -/
def itemsTemp (g : Grammar) (depth : Nat) (c : List ItemSet) : Res (List ItemSet) :=
  flatMapRes (fun set => do
    let gs ← mapRes (fun x => goto g depth set x) g.tokens
    return gs.filter fun s => !s.isEmpty && !decide (s ∈ c)) c

/-- `IndexSet::insert` (src/lalr/item.rs:214, src/lalr/table.rs:238): appended
unless present. -/
def iinsert (s : ItemSet) (c : List ItemSet) : List ItemSet := if s ∈ c then c else c ++ [s]

/-- The `loop` of `items` (src/lalr/item.rs:198-216); `temp` is popped from its
end. -/
def itemsLoop (g : Grammar) (depth : Nat) : Nat → List ItemSet → Res (List ItemSet)
  | fuel, c => do
    let temp ← itemsTemp g depth c
    if temp.isEmpty then return c
    else
      match fuel with
      | 0 => .error .outOfFuel
      | fuel + 1 => itemsLoop g depth fuel (temp.reverse.foldl (fun c s => iinsert s c) c)

/-- Number of (item, lookahead) pairs of a grammar; `2 ^` this bounds the number of
item sets and hence the iterations of src/lalr/item.rs:198-216. -/
def pairCount (g : Grammar) : Nat :=
  ((g.prods.map fun p => p.inputs.length + 1).sum) * g.tokens.length

/-- `ItemSet::items` (src/lalr/item.rs:186-219). -/
def items (g : Grammar) (depth : Nat) : Res (List ItemSet) := do
  let i0 ← closure g depth initial
  itemsLoop g depth (2 ^ pairCount g) [i0]

/-- The keys hashed by `core_hash` (src/lalr/item.rs:158-163). -/
def core (s : ItemSet) : List Item := s.map Prod.fst

/-- `union` (src/lalr/item.rs:168-174), in a release build: `debug_assert_eq!` (line 169) is in `Verif.Model.Debug`. -/
def union (a b : ItemSet) : Res ItemSet :=
  mapRes (fun (e : Item × List Nat) =>
    match mget e.1 b with
    | none => .error .coreMismatch
    | some las => .ok (e.1, las.foldl (fun s x => oinsert x s) e.2)) a

end ItemSet
end Verif
