import Verif.Model.ParseGen
import Verif.Model.TsLex

/-! # ts/parse.ts and the generated actions

The types written by the user are opaque: `V` is the type of their values. -/

namespace Verif.Ts
open ParseGen

/-- `type_defs.Symbol` (src/codegen/parse_gen.rs:166-174, ts/parse.ts:81); `none` is
`undefined`. -/
inductive Symb (V : Type) where
  | token (t : Option Tok)
  | nonTerm (kind : Str) (value : V)
deriving DecidableEq, Repr

/-- The meaning of the user's TypeScript: the value of a text, the value of mapping
code given the values of its parameters (`none`: not known), whether a value belongs to the type
declared for a nonterminal, whether one value extends another, and the symbols that
a value spreads to if it is a tuple of symbols
(src/codegen/parse_gen.rs:303-309, 381-386, 483-486). -/
structure Sem (V : Type) where
  text : Str → V
  code : Str → List (Str × V) → Option V
  has : Str → V → Bool
  sub : V → V → Bool
  spread : V → Option (List (Symb V))

variable {V : Type}

/-- `x extends type_defs.Symbol` (src/codegen/parse_gen.rs:166-174). -/
def isSymbol (S : Sem V) (T : ParseGen.Tables) : Symb V → Bool
  | .token t => t.isSome
  | .nonTerm k v => decide (k ∈ T.symbols) && S.has k v

/-- `v extends K` where `K` is written as the name of a nonterminal: a parameter of
that name hides the declared type (src/codegen/parse_gen.rs:483-486). -/
def inType (S : Sem V) (env : List (Str × V)) (k : Str) (v : V) : Bool :=
  match mget k env with
  | some u => S.sub v u
  | none => S.has k v

/-- One condition (src/codegen/parse_gen.rs:481-530): `none` if it fails, otherwise
the parameters it binds.  `popped` are the symbols bound to `__name`, `env` the
parameters bound so far.  Simplification: a token value `never` would extend
anything; here it fails (C36 excludes it). -/
def checkCond (S : Sem V) (popped : List (Str × Symb V)) (env : List (Str × V)) :
    Cond → Option (List (Str × V))
  | .nonTerm n k =>
    match mget n popped with
    | some (.nonTerm k' v) => if k' = k ∧ inType S env k v = true then some [(n, v)] else none
    | _ => none
  | .isToken n =>
    match mget n popped with
    | some (.token (some _)) => some []
    | _ => none
  | .lit n s =>
    match mget n popped with
    | some (.token (some ⟨_, some (.val w)⟩)) => if w = s then some [(n, S.text w)] else none
    | _ => none
  | .text n =>
    match mget n popped with
    | some (.token (some ⟨_, some (.val w)⟩)) => some [(n, S.text w)]
    | _ => none

/-- The nested conditional type (src/codegen/parse_gen.rs:533-542): the conditions
are printed in order, each followed by `?`, then the result, then the messages in
order, each preceded by `:`.  So the last message belongs to the first condition.
Returns the bindings, or the message of the first condition that fails. -/
def runConds (S : Sem V) (popped : List (Str × Symb V)) :
    List Cond → List Msg → List (Str × V) → Except (Option Msg) (List (Str × V))
  | [], _, env => .ok env
  | c :: cs, es, env =>
    match checkCond S popped env c with
    | some b => runConds S popped cs es.dropLast (env ++ b)
    | none => .error es.getLast?

/-- Result of `EmitProduction` (src/codegen/parse_gen.rs:311-323). -/
inductive Emit (V : Type) where
  | stack (l : List (Symb V))
  | error (m : Msg)
  | other
deriving DecidableEq, Repr

/-- The names of `popped_values` (src/codegen/parse_gen.rs:425-438) with the symbols
they are matched with.  Simplification: a name used twice is looked up as its first
occurrence (TypeScript infers a union). -/
def poppedNames (ps : List Param) (vs : List (Symb V)) : List (Str × Symb V) :=
  (ps.zip vs).filterMap fun p => match p.1 with
    | .named n _ => some (n, p.2)
    | _ => none

/-- `ActionN` (src/codegen/parse_gen.rs:373-463).  A parameter called `newStack`
hides the rest of the stack in `...newStack` (386).  Not represented: a parameter `__x` next to a
parameter `x`, and parameters named like a TypeScript keyword. -/
def runAct (max : Nat) (S : Sem V) (T : ParseGen.Tables) (a : Act) (stack : List (Symb V)) : Emit V :=
  match popNStackWithValue max stack (some a.inputs.length) with
  | none => .other
  | some (newStack, popped) =>
    if popped.length = a.inputs.length then
      if newStack.all (isSymbol S T) then
        match runConds S (poppedNames a.inputs popped) (validate a).1 (validate a).2 [] with
        | .ok env =>
          match S.code a.code env with
          | none => .other
          | some v =>
            match mget "newStack".toList env with
            | none => .stack (.nonTerm a.name v :: newStack)
            | some u =>
              match S.spread u with
              | some l => .stack (.nonTerm a.name v :: l)
              | none => .other
        | .error (some m) => .error m
        | .error none => .other
      else .other
    else .other

/-- `EmitProduction` (src/codegen/parse_gen.rs:311-323). -/
def emitProduction (max : Nat) (S : Sem V) (T : ParseGen.Tables) (p : Nat) (stack : List (Symb V)) : Emit V :=
  match T.acts.find? fun a => decide (a.idx = p) with
  | some a => runAct max S T a stack
  | none => .other

/-- Results of `Parse` (ts/parse.ts:61-180). -/
inductive ParseOut (V : Type) where
  /-- accept: the symbol stack (168) -/
  | symbols (l : List (Symb V))
  /-- `exceeded max recursion depth` (137) -/
  | exceeded
  /-- `error: invalid token` with the symbol stack (169) -/
  | invalidToken (a : Option Nat) (l : List (Symb V))
  /-- the tuple of lines 118-122 -/
  | emitError (e : Emit V) (l : List (Symb V))
  /-- `not good` (124) -/
  | noGoto
  /-- `error: head['kind'] is not a valid token kind` (57) -/
  | badKind (k : Str)
  /-- `error: todo fill this out` (86) -/
  | noNext
  /-- `error: stack is empty` (171) or `unreachable: ..` (125) -/
  | badStack
  /-- `` error: `ruleIdx` is not a key in `Productions` `` (166) -/
  | noProduction
  | never
deriving DecidableEq, Repr

/-- `NextToken` (ts/parse.ts:23-35): new `a` (`none` is `undefined`) and new `i`. -/
def nextToken (max : Nat) (a : Option Nat) (i : Nat) (input : List Nat) : Option (Option Nat × Nat) :=
  match succ max (some i) with
  | none => none
  | some i1 => if trueOrNever (lt max (some i1) (some input.length)) then some (input[i1]?, i1) else some (a, i)

/-- `TokenIndicesImpl` (ts/parse.ts:45-59). -/
def tokenIndicesImpl (T : ParseGen.Tables) : List Tok → List Nat → Except Str (List Nat)
  | [], ret => .ok ret
  | t :: ts, ret =>
    match mget t.kind T.kindToIdx with
    | some k => tokenIndicesImpl T ts (k :: ret)
    | none => .error t.kind

/-- `TokenIndices` (ts/parse.ts:37-44). -/
def tokenIndices (T : ParseGen.Tables) (toks : List Tok) : Except Str (List Nat) :=
  match tokenIndicesImpl T toks [] with
  | .ok l => .ok (reverse l)
  | .error e => .error e

/-- `ParseImpl` with `ParseImplShift` and `ParseImplReduce` (ts/parse.ts:61-171).
The first number is `maxRecursionDepth`; `U.Pred` of it (84, 116) is written as the
predecessor, which it is within the arithmetic tables (C39). -/
def parseImpl (max : Nat) (S : Sem V) (T : ParseGen.Tables) (toks : List Tok) (input : List Nat) :
    Nat → List Nat → Nat → Option Nat → List (Symb V) → ParseOut V
  | 0, _, _, _, _ => .exceeded
  | _ + 1, [], _, _, _ => .badStack
  | depth + 1, top :: rest, i, a, syms =>
    match a.bind fun a => T.action.tryIndex top a with
    | some (.shift j) =>
      match nextToken max a i input with
      | some (some a', i') =>
        parseImpl max S T toks input depth (j :: top :: rest) i' (some a') (.token toks[i]? :: syms)
      | some (none, _) => .noNext
      | none => .never
    | some (.reduce p) =>
      match T.productions[p]? with
      | none => .noProduction
      | some (name, ptoks) =>
        match popNStack max (top :: rest) (some ptoks.length) with
        | none => .never
        | some [] => .badStack
        | some (t :: stk) =>
          match T.goto.tryIndex t name with
          | none => .noGoto
          | some j =>
            match emitProduction max S T p syms with
            | .stack l =>
              if l.all (isSymbol S T) then parseImpl max S T toks input depth (j :: t :: stk) i a l
              else .emitError (.stack l) syms
            | e => .emitError e syms
    | some .accept => .symbols syms
    | none => .invalidToken a syms

/-- `Parse` (ts/parse.ts:173-180). -/
def parse (max : Nat) (S : Sem V) (T : ParseGen.Tables) (toks : List Tok) : ParseOut V :=
  match tokenIndices T toks with
  | .error k => .badKind k
  | .ok input => parseImpl max S T toks input 50 [0] 0 input[0]? []

end Verif.Ts
