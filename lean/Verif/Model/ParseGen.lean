import Verif.Model.Parse

/-! # src/codegen/parse_gen.rs

The contents of the generated tables and of the generated actions.  Conditions
and messages of the actions are data here; their text is in `Model/ParseText.lean`. -/

namespace Verif.ParseGen

/-- `ActionImplParam` with `NamedActionImplParam` (src/codegen/parse_gen.rs:61-71). -/
inductive Param where
  | named (name : Str) (param : Param)
  | nonTerm (s : Str)
  | strLit (s : Str)
  | regex (s : Str)
deriving DecidableEq, Repr

/-- `from_input_symbols` (src/codegen/parse_gen.rs:580-599); `name.unwrap()` at 592. -/
def Param.fromInput : Ast.InSym → Res (Option Param)
  | .strLit s => .ok (some (.strLit s))
  | .nonTerm s => .ok (some (.nonTerm s))
  | .regex s => .ok (some (.regex s))
  | .named none _ => .error .unwrapNone
  | .named (some n) ty => do
    match ← Param.fromInput ty with
    | some p => return some (.named n p)
    | none => return none
  | .epsilon => .ok none
  | .eof => .ok none

/-- `filter_map` over the input symbols (src/codegen/parse_gen.rs:102-106). -/
def paramsOf : List Ast.InSym → Res (List Param)
  | [] => .ok []
  | s :: ss => do
    let p ← Param.fromInput s
    let ps ← paramsOf ss
    match p with
    | some p => return p :: ps
    | none => return ps

/-- `Action` and its `ActionImpl` (src/codegen/parse_gen.rs:47-59); `pop_amount` is
the number of inputs (115). -/
structure Act where
  idx : Nat
  name : Str
  code : Str
  inputs : List Param
deriving DecidableEq, Repr

/-- The bodies of all productions in order, with the name of their production
(src/codegen/parse_gen.rs:93-95). -/
def bodiesOf (ps : List Ast.Prod) : List (Str × Ast.Body) :=
  ps.flatMap fun p => p.bodies.map fun b => (p.name, b)

/-- The numbering of the action implementations (src/codegen/parse_gen.rs:96-109);
the first call has `i = 1`, `starting_production_idx` (92). -/
def actsFrom : Nat → List (Str × Ast.Body) → Res (List Act)
  | _, [] => .ok []
  | i, b :: bs => do
    let inputs ← paramsOf b.2.inputs
    let as ← actsFrom (i + 1) bs
    return ⟨i, b.1, b.2.mapping, inputs⟩ :: as

/-- `actions` of `Ctx::new` (src/codegen/parse_gen.rs:92-119). -/
def actsOf (ps : List Ast.Prod) : Res (List Act) := actsFrom 1 (bodiesOf ps)

/-- A condition emitted by `validate_params` (src/codegen/parse_gen.rs:481-530). -/
inductive Cond where
  /-- `__n extends { kind : "K", value: infer n extends K }` (483-486) -/
  | nonTerm (name kind : Str)
  /-- `__n extends { kind: "token", token: L.Token }` (494-497, 512-515) -/
  | isToken (name : Str)
  /-- `__n['token']['value'] extends infer n extends 'lit'` (498-501) -/
  | lit (name s : Str)
  /-- `__n['token']['value'] extends infer n extendsstring` (516-519).  The missing
  space makes the emitted text invalid (C44); as data it is the intended condition,
  the one in the checked in ts/parse_state2.gen.ts. -/
  | text (name : Str)
deriving DecidableEq, Repr

/-- An error message emitted by `validate_params` (src/codegen/parse_gen.rs:488-527). -/
inductive Msg where
  /-- ``error: invalid symbol (pos `i`, ActionN)`` (488-491, 506-509, 524-527) -/
  | invalidSymbol (pos act : Nat)
  /-- ``error: not a token (pos `i`, ActionN)`` (502-505, 520-523) -/
  | notToken (pos act : Nat)
deriving DecidableEq, Repr

/-- What `validate_params` pushes on `cond_stack` and `else_stack` for one input
(src/codegen/parse_gen.rs:476-530).  Simplification: `unreachable!()` (529, a named
parameter inside a named one) pushes nothing; `generate` does not get there, see `callImplArgs`. -/
def paramChecks (act pos : Nat) : Param → List Cond × List Msg
  | .named n (.nonTerm k) => ([.nonTerm n k], [.invalidSymbol pos act])
  | .named n (.strLit s) => ([.isToken n, .lit n s], [.notToken pos act, .invalidSymbol pos act])
  | .named n (.regex _) => ([.isToken n, .text n], [.notToken pos act, .invalidSymbol pos act])
  | _ => ([], [])

/-- The loop of `validate_params` (src/codegen/parse_gen.rs:473-531): conditions and
messages, both in the order they are pushed and printed (533-542). -/
def checks (act : Nat) : Nat → List Param → List Cond × List Msg
  | _, [] => ([], [])
  | i, p :: ps =>
    let c := paramChecks act (i + 1) p
    let r := checks act (i + 1) ps
    (c.1 ++ r.1, c.2 ++ r.2)

/-- `validate_params` (src/codegen/parse_gen.rs:465-545), without the text. -/
def validate (a : Act) : List Cond × List Msg := checks a.idx 0 a.inputs

/-- The generated tables (src/codegen/parse_gen.rs:147-156, 166-296).  `Tokens`
(176-211) is only used as the type of the numbers in `tokens` and is left out, but
for its `todo!()` (196). -/
structure Tables where
  /-- kinds of the union `Symbol` besides "token" (166-174) -/
  symbols : List Str
  productions : List (Str × List Nat)
  action : Table Nat Action
  goto : Table Str Nat
  kindToIdx : List (Str × Nat)
  acts : List Act

/-- Tokens of one production (src/codegen/parse_gen.rs:231-237);
`expect("Should have token idx")`. -/
def prodTokens (g : Grammar) : List Sym → Res (List Nat)
  | [] => .ok []
  | s :: ss => do
    match g.getTokenIdx s with
    | none => .error .undefinedToken
    | some k => return k :: (← prodTokens g ss)

/-- `generate_productions` (src/codegen/parse_gen.rs:213-243). -/
def genProductions (g : Grammar) : List Production → Res (List (Str × List Nat))
  | [] => .ok []
  | p :: ps => do
    let ts ← prodTokens g p.inputs
    return (p.name, ts) :: (← genProductions g ps)

/-- The `match` of `generate_tokenkind_to_idx` (src/codegen/parse_gen.rs:285-291). -/
def kindEntry (p : Sym × Nat) : Option (Str × Nat) :=
  match p.1 with
  | .strLit s => some (s, p.2)
  | .regex r => some (r, p.2)
  | .nonTerm _ => none
  | .epsilon => none
  | .eof => some ("EOF".toList, p.2)

/-- `generate_tokenkind_to_idx` (src/codegen/parse_gen.rs:277-296). -/
def genKinds (g : Grammar) : List (Str × Nat) := g.tokens.zipIdx.filterMap kindEntry

/-- `call_impl_args` (src/codegen/parse_gen.rs:349-371); its counter `i` is never read. -/
def callImplArgs : List Param → Res Str
  | [] => .ok []
  | .named n (.nonTerm _) :: ps => do return n ++ "['value'],".toList ++ (← callImplArgs ps)
  | .named n (.regex _) :: ps => do return n ++ "['token']['value'],".toList ++ (← callImplArgs ps)
  | .named n (.strLit _) :: ps => do return n ++ "['token']['value'],".toList ++ (← callImplArgs ps)
  | .named _ (.named _ _) :: _ => .error .unreachable
  | _ :: ps => callImplArgs ps

/-- `Ctx::new` and `generate` (src/codegen/parse_gen.rs:74-156, 603-611); `todo!()`
of `generate_tokens` (196) for a token `Epsilon`; the arguments written by `call_impl_args` (378-379)
are dropped, its panic is not. -/
def generate (ps : List Ast.Prod) (l : Lalr) : Res Tables := do
  let acts ← actsOf ps
  if Sym.epsilon ∈ l.grammar.tokens then .error .todo
  let prods ← genProductions l.grammar l.grammar.prods
  let _ ← mapRes (fun a => callImplArgs a.inputs) acts
  return { symbols := ps.map (·.name), productions := prods, action := l.action, goto := l.goto,
           kindToIdx := genKinds l.grammar, acts := acts }

end Verif.ParseGen
