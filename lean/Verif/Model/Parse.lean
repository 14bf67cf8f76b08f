import Verif.Model.Table

/-! # src/lalr.rs -/

namespace Verif

/-- `Lalr` (src/lalr.rs:21-27). -/
structure Lalr where
  grammar : Grammar
  lexer : Lex
  action : Table Nat Action
  goto : Table Str Nat
  states : List ItemSet

namespace Lalr

/-- Call-stack depth given to `first_of_symbol`: enough for every grammar on which
it terminates (C19), src/lalr/first.rs:32-57. -/
def depthOf (g : Grammar) : Nat := g.prods.length + 2

/-- `Lalr::new` (src/lalr.rs:30-42). -/
def new {H : Type} [DecidableEq H] (hash : List Item → H) (rx : Str → Option Hir)
    (ord : Nfa.Order) (g : Grammar) : Res Lalr := do
  let lexer ← g.lexer rx ord
  let (a, t, s) ← makeTables hash g (depthOf g)
  return { grammar := g, lexer := lexer, action := a, goto := t, states := s }

/-- Local variables of `parse_impl` (src/lalr.rs:53-59): the state stack with its
top first, the position `i`, the current token index `a_idx`; `out` is the list of
productions reported by `println!("  reducing by ..")` (src/lalr.rs:120). -/
structure PState where
  stack : List Nat
  i : Nat
  a : Nat
  out : List Nat
deriving DecidableEq, Repr

/-- `next_token` (src/lalr.rs:62-73): past the end the current token is kept. -/
def nextToken (toks : List Nat) (i a : Nat) : Nat × Nat :=
  (i + 1, (toks[i + 1]?).getD a)

/-- One iteration of the loop of `parse_impl` (src/lalr.rs:90-155): `Except.ok none`
is `Accept`.  Only the indices of the tokens matter. -/
def step (g : Grammar) (action : Table Nat Action) (goto : Table Str Nat) (toks : List Nat)
    (st : PState) : Res (Option PState) :=
  match st.stack with
  | [] => .error .stackEmpty
  | s :: _ =>
    match action.tryIndex s st.a with
    | some (.shift j) =>
      let (i, a) := nextToken toks st.i st.a
      .ok (some { st with stack := j :: st.stack, i := i, a := a })
    | some (.reduce p) =>
      match g.prods[p]? with
      | none => .error .productionUndefined
      | some prod =>
        if st.stack.length < prod.inputs.length then .error .underflow
        else
          match st.stack.drop prod.inputs.length with
          | [] => .error .stackEmpty
          | t :: rest =>
            match goto.tryIndex t prod.name with
            | none => .error .gotoEmpty
            | some j => .ok (some { st with stack := j :: t :: rest, out := st.out ++ [p] })
    | some .accept => .ok none
    | none => .error .invalidToken

/-- The loop of `parse_impl` (src/lalr.rs:90-155). -/
def run (g : Grammar) (action : Table Nat Action) (goto : Table Str Nat) (toks : List Nat) :
    Nat → PState → Res PState
  | 0, _ => .error .outOfFuel
  | fuel + 1, st =>
    match step g action goto toks st with
    | .error e => .error e
    | .ok none => .ok st
    | .ok (some st') => run g action goto toks fuel st'

/-- Start of `parse_impl` (src/lalr.rs:53-59). -/
def startState (toks : List Nat) : Res PState :=
  match toks with
  | [] => .error .emptyTokens
  | a :: _ => .ok ⟨[0], 0, a, []⟩

/-- `parse_impl` (src/lalr.rs:51-159) on token indices, cut off after `fuel`
iterations; returns the productions reduced, in order. -/
def parseIdx (g : Grammar) (action : Table Nat Action) (goto : Table Str Nat) (fuel : Nat)
    (toks : List Nat) : Res (List Nat) := do
  let st ← startState toks
  let st ← run g action goto toks fuel st
  return st.out

/-- `parse` (src/lalr.rs:44-49), cut off after `fuel` parser iterations. -/
def parse (l : Lalr) (fuel : Nat) (input : Str) : Res (List Nat) := do
  let ts ← l.lexer.lex input
  let ps ← l.lexer.convertTokens ts
  parseIdx l.grammar l.action l.goto fuel (ps.map Prod.snd)

end Lalr
end Verif
