import Verif.Spec.TsDecl
import Verif.Model.LexGen
import Verif.Model.ParseGen

/-! # Specification: the tables that type declarations describe

Names declared twice, and members that occur twice, are errors in TypeScript. -/

namespace Verif.Spec
open Verif

/-- The type declared under a name. -/
def declOf (ds : List (Str × TsTy)) (n : Str) : Option TsTy :=
  match ds.filter fun d => decide (d.1 = n) with
  | [d] => some d.2
  | _ => none

def membersOf : TsTy → Option (List (TsKey × TsTy))
  | .obj ms => if (ms.map Prod.fst).Nodup then some ms else none
  | _ => none

def memberOf (t : TsTy) (n : String) : Option TsTy :=
  (membersOf t).bind fun ms => (ms.find? fun m => decide (m.1 = .name n.toList)).map Prod.snd

def elemsOf : TsTy → Option (List TsTy)
  | .tuple ts => some ts
  | _ => none

def numOf : TsTy → Option Nat
  | .num n => some n
  | _ => none

def strOf : TsTy → Option Str
  | .str s => some s
  | _ => none

def nameOf : TsTy → Option Str
  | .name s => some s
  | _ => none

def boolOf : TsTy → Option Bool
  | .name s => if s = "true".toList then some true else if s = "false".toList then some false else none
  | _ => none

def keyNum : TsKey → Option Nat
  | .num n => some n
  | _ => none

def keyName : TsKey → Option Str
  | .name s => some s
  | _ => none

/-- All results, if there are all. -/
def collect {α β : Type} (f : α → Option β) : List α → Option (List β)
  | [] => some []
  | a :: l => (f a).bind fun b => (collect f l).map (b :: ·)

/-- An entry of `Tokens` in the lexer file. -/
def lexToken (ds : List (Str × TsTy)) (m : TsKey × TsTy) : Option (Nat × Str × Bool) := do
  let i ← keyNum m.1
  let n ← nameOf m.2
  let d ← declOf ds n
  let k ← (← memberOf d "kind") |> strOf
  let v ← (← memberOf d "hasValue") |> boolOf
  return (i, k, v)

def lexLabel (t : TsTy) : Option (Nat × Nat) := do
  let a ← (← memberOf t "from") |> numOf
  let b ← (← memberOf t "to") |> numOf
  return (a, b)

/-- An element of `States`. -/
def lexState (ds : List (Str × TsTy)) (t : TsTy) : Option LexGen.State := do
  let n ← nameOf t
  let d ← declOf ds n
  let to ← collect numOf (← (← memberOf d "to") |> elemsOf)
  let ls ← collect lexLabel (← (← memberOf d "labels") |> elemsOf)
  let a ← (← memberOf d "accepting") |> boolOf
  return ⟨to, ls, a⟩

/-- A number and a list of numbers. -/
def numNums (m : TsKey × TsTy) : Option (Nat × List Nat) := do
  let i ← keyNum m.1
  let l ← collect numOf (← elemsOf m.2)
  return (i, l)

/-- The tables of the lexer file. -/
def lexTables (ds : List (Str × TsTy)) : Option LexGen.Tables := do
  let toks ← collect (lexToken ds) (← (← declOf ds "Tokens".toList) |> membersOf)
  let sts ← collect (lexState ds) (← (← declOf ds "States".toList) |> elemsOf)
  let d2n ← collect numNums (← (← declOf ds "DFAtoNFA".toList) |> membersOf)
  return ⟨toks, sts, d2n⟩

/-- The character table: `CharTable`, keyed by the characters. -/
def charTable (ds : List (Str × TsTy)) : Option (List (Str × Nat)) := do
  collect (fun m => do return (← keyName m.1, ← numOf m.2)) (← (← declOf ds "CharTable".toList) |> membersOf)

/-- `Characters`, keyed by the codes. -/
def characters (ds : List (Str × TsTy)) : Option (List (Nat × Str)) := do
  collect (fun m => do return (← keyNum m.1, ← strOf m.2)) (← (← declOf ds "Characters".toList) |> membersOf)

/-- The kind of an alternative of `Symbol`. -/
def symbolKind (t : TsTy) : Option Str := do (← memberOf t "kind") |> strOf

/-- The kinds of `Symbol` other than tokens. -/
def symbolKinds : TsTy → Option (List Str)
  | .union (t :: ts) => do
    if (← symbolKind t) = "token".toList then collect symbolKind ts else none
  | t => do if (← symbolKind t) = "token".toList then return [] else none

/-- `0: .., 1: .., ..` in order. -/
def inOrder {α : Type} (l : List (Nat × α)) : Option (List α) :=
  if l.map Prod.fst = List.range l.length then some (l.map Prod.snd) else none

/-- A member of `Tokens` in the parser file. -/
def tokenEntry (m : TsKey × TsTy) : Option (Nat × Sym) := do
  let i ← keyNum m.1
  let k ← (← memberOf m.2 "kind") |> strOf
  if k = "eof".toList then return (i, .eof)
  else
    let v ← (← memberOf m.2 "value") |> strOf
    if k = "strlit".toList then return (i, .strLit v)
    else if k = "nonterminal".toList then return (i, .nonTerm v)
    else if k = "regex".toList then return (i, .regex v)
    else none

def productionOf (m : TsKey × TsTy) : Option (Nat × Str × List Nat) := do
  let i ← keyNum m.1
  let n ← (← memberOf m.2 "name") |> strOf
  let ts ← collect numOf (← (← memberOf m.2 "tokens") |> elemsOf)
  return (i, n, ts)

/-- An action. -/
def actionOf (t : TsTy) : Option Action := do
  match ← membersOf t with
  | [(.name k, v)] =>
    if k = "shift".toList then return .shift (← numOf v)
    else if k = "reduce".toList then return .reduce (← numOf v)
    else if k = "accept".toList then (if (← boolOf v) then return .accept else none)
    else none
  | _ => none

def actionRow (m : TsKey × TsTy) : Option (Nat × List (Nat × Action)) := do
  let s ← keyNum m.1
  let r ← collect (fun e => do return (← keyNum e.1, ← actionOf e.2)) (← membersOf m.2)
  return (s, r)

def gotoRow (m : TsKey × TsTy) : Option (Nat × List (Str × Nat)) := do
  let s ← keyNum m.1
  let r ← collect (fun e => do return (← keyName e.1, ← numOf e.2)) (← membersOf m.2)
  return (s, r)

/-- The tables of the module `type_defs`. -/
structure TypeDefs where
  symbols : List Str
  tokens : List Sym
  productions : List (Str × List Nat)
  action : Table Nat Action
  goto : Table Str Nat
  kindToIdx : List (Str × Nat)

def typeDefs (ds : List (Str × TsTy)) : Option TypeDefs := do
  let syms ← symbolKinds (← declOf ds "Symbol".toList)
  let toks ← (← collect tokenEntry (← (← declOf ds "Tokens".toList) |> membersOf)) |> inOrder
  let prods ← (← collect productionOf (← (← declOf ds "Productions".toList) |> membersOf)) |> inOrder
  let action ← collect actionRow (← (← declOf ds "Action".toList) |> membersOf)
  let goto ← collect gotoRow (← (← declOf ds "Goto".toList) |> membersOf)
  let kinds ← collect (fun m => do return (← keyName m.1, ← numOf m.2)) (← (← declOf ds "TokenKindToIdx".toList) |> membersOf)
  return ⟨syms, toks, prods, action, goto, kinds⟩

end Verif.Spec
