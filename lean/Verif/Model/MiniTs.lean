import Verif.Model.LexText

/-! # The types of TypeScript used by ts/util.ts, ts/lex.ts, ts/parse.ts

A small evaluator for type-level programs: alias declarations, conditional types with
`infer`, tuples, object types, indexed access, `keyof`, unions, template literals.
It follows the TypeScript handbook (Conditional Types, Indexed Access Types, Template
Literal Types, Tuple Types) with `strict` (tsconfig.json:7).  `none` means that the
evaluator does not say: the case is outside the fragment.  Not represented: the limits of the
compiler on instantiation depth and count, the constraints of type parameters (a
violated constraint is an error message of the compiler and does not change the
result), unions as the checked type of a conditional type. -/

namespace Verif.MiniTs

/-- The name of a member of an object type, as in ts/chars.ts:1-3 (number) and ts/lex.ts:6-9. -/
inductive Key where
  | num (n : Nat)
  | str (s : Str)
deriving DecidableEq, Repr

/-- Evaluated types.  `named k` is a type declared by the user in the grammar
(src/codegen/parse_gen.rs:303-309), `template` a template literal type that is not a
single string. -/
inductive Ty where
  | never | any | unknown | undef
  | str (s : Str) | string | template
  | num (n : Nat) | number
  | bool (b : Bool)
  | tup (ts : List Ty)
  | arr (t : Ty)
  /-- members; the flag is `?` -/
  | obj (ms : List (Key × Bool × Ty))
  | union (ts : List Ty)
  | named (k : Str)
deriving Repr

/-- How an expression occurs in a list: an element, a spread element `...e` (ts/util.ts:11), a member (ts/lex.ts:11-14). -/
inductive Head where
  | elem
  | spread
  | member (k : Key) (optional : Bool)
deriving DecidableEq, Repr

mutual
/-- Type expressions (ts/util.ts, ts/lex.ts, ts/parse.ts).  `code` is mapping code of the
user in terms of the parameters `xs` (src/codegen/parse_gen.rs:381-385).  Simplification: it is
given the values of these names only, although other names are in scope. -/
inductive Exp where
  | lit (t : Ty)
  | ref (x : Str) (args : Exps)
  | idx (t k : Exp)
  | keyof (t : Exp)
  | arr (t : Exp)
  | tup (es : Exps)
  | obj (ms : Exps)
  | union (ts : Exps)
  | tmpl (ps : Exps)
  | infer (x : Str)
  /-- `infer x extends c` -/
  | inferExt (x : Str) (c : Exp)
  | cond (c e t f : Exp)
  | code (s : Str) (xs : List Str)
/-- Lists of type expressions (ts/lex.ts:6-9, 64-67). -/
inductive Exps where
  | nil
  | cons (h : Head) (e : Exp) (es : Exps)
end

/-- What the user's types mean: the value of mapping code, if it has one, given its parameters, and which
types extend a declared type (src/codegen/parse_gen.rs:303-309, 381-385). -/
structure User where
  code : Str → List (Str × Ty) → Option Ty
  has : Str → Ty → Bool

/-- The values of type parameters and `infer` variables in scope (ts/util.ts:9-14). -/
abbrev Env := List (Str × Ty)

/-- A source type that is a union is assignable if all its members are (ts/util.ts:20-22). -/
def lift (f : Ty → Bool) : Ty → Bool
  | .never => true
  | .any => true
  | .union ts => ts.all f
  | t => f t

/-- The member of an object type (ts/lex.ts:55-59). -/
def member (k : Key) : List (Key × Bool × Ty) → Option (Bool × Ty)
  | [] => none
  | m :: ms => if m.1 = k then some m.2 else member k ms

mutual
/-- Assignability to a type, as tested by `extends` (ts/lex.ts:54).  Target first. -/
def accepts (U : User) : Ty → Ty → Bool
  | .never => fun v => match v with | .never => true | _ => false
  | .any => fun _ => true
  | .unknown => fun _ => true
  | .undef => lift fun v => match v with | .undef => true | _ => false
  | .str s => lift fun v => match v with | .str s' => decide (s' = s) | _ => false
  | .string => lift fun v => match v with | .str _ => true | .string => true | .template => true | _ => false
  | .template => lift fun v => match v with | .template => true | _ => false
  | .num n => lift fun v => match v with | .num n' => decide (n' = n) | _ => false
  | .number => lift fun v => match v with | .num _ => true | .number => true | _ => false
  | .bool b => lift fun v => match v with | .bool b' => decide (b' = b) | _ => false
  | .tup ts => lift fun v => match v with | .tup vs => acceptsTup U ts vs | _ => false
  | .arr t => lift fun v => match v with | .tup vs => vs.all (accepts U t) | .arr v => accepts U t v | _ => false
  | .obj ms => lift fun v => match v with | .obj vs => acceptsObj U ms vs | _ => false
  | .union ts => lift fun v => acceptsAny U ts v
  | .named k => lift fun v => U.has k v
/-- Tuples of the same length, element by element (ts/lex.ts:64-67). -/
def acceptsTup (U : User) : List Ty → List Ty → Bool
  | [], vs => vs.isEmpty
  | t :: ts, vs => match vs with | [] => false | v :: vs => accepts U t v && acceptsTup U ts vs
/-- Every member of the target is there, or is optional (ts/lex.ts:27-30). -/
def acceptsObj (U : User) : List (Key × Bool × Ty) → List (Key × Bool × Ty) → Bool
  | [], _ => true
  | (k, o, t) :: ms, vs =>
    (match member k vs with
      | none => o
      | some (vo, v) => (!vo || o) && (accepts U t v || (o && match v with | .undef => true | _ => false))) &&
    acceptsObj U ms vs
/-- Some member of a union (ts/util.ts:20-22). -/
def acceptsAny (U : User) : List Ty → Ty → Bool
  | [], _ => false
  | t :: ts, v => accepts U t v || acceptsAny U ts v
end

/-- The literal type of a key (ts/util.ts:53). -/
def Key.ty : Key → Ty
  | .num n => .num n
  | .str s => .str s

/-- `keyof` (ts/util.ts:53).  For tuples and arrays only the numbers are represented
(ts/parse.ts:30). -/
def keysOf : Ty → Option Ty
  | .obj ms => some (.union (ms.map fun m => m.1.ty))
  | .tup _ => some .number
  | .arr _ => some .number
  | _ => none

/-- The member of that name; instantiation yields `unknown` if there is none
(ts/lex.ts:83, ts/parse.ts:112). -/
def memberOr (k : Key) (ms : List (Key × Bool × Ty)) : Option Ty :=
  match member k ms with
  | some (false, t) => some t
  | some (true, _) => none
  | none => some .unknown

/-- The member named by a literal (ts/util.ts:53, ts/lex.ts:57). -/
def memberAt (ms : List (Key × Bool × Ty)) : Ty → Option Ty
  | .num n => memberOr (.num n) ms
  | .str s => memberOr (.str s) ms
  | _ => none

/-- Indexed access `t[k]` (ts/lex.ts:71-76, 108).  A tuple has `undefined` beyond its
end; a string has strings. -/
def access : Ty → Ty → Option Ty
  | .never, _ => some .never
  | _, .never => some .never
  | .tup ts, .num n => some (ts[n]?.getD .undef)
  | .tup ts, .str s => if s = "length".toList then some (.num ts.length) else none
  | .str _, .num _ => some .string
  | .obj ms, .union ks => (ks.mapM (memberAt ms)).map .union
  | .obj ms, k => memberAt ms k
  | _, _ => none

/-- The text of a part of a template literal type (ts/lex.ts:35); `none`: the type is not a literal. -/
def partText : Ty → Option (Option Str)
  | .str s => some (some s)
  | .num n => some (some (LexGen.digits n))
  | .undef => some (some "undefined".toList)
  | .bool b => some (some (LexGen.boolText b))
  | .string => some none
  | .template => some none
  | .number => some none
  | _ => none

/-- A template literal type (ts/util.ts:49, ts/lex.ts:35). -/
def concat (acc : Str) : List Ty → Option Ty
  | [] => some (.str acc)
  | t :: ts =>
    match partText t with
    | none => none
    | some none => some .template
    | some (some s) => concat (acc ++ s) ts

/-- The elements of a tuple type with spreads (ts/util.ts:13). -/
def splice : Ty → List Ty → Option (List Ty)
  | .tup vs, ts => some (vs ++ ts)
  | _, _ => none

/-- Is the checked type of a conditional type a type parameter?  Then the conditional type
distributes, and is `never` for `never` (ts/util.ts:54-58). -/
def naked (env : Env) : Exp → Bool
  | .ref x .nil => (mget x env).isSome
  | _ => false

/-- `` s extends `${infer a}${infer b}` ``, `` s extends `${infer a}` `` (ts/lex.ts:91, 108):
the variables but the last take one character each. -/
def matchTmpl (v : Ty) : Exps → Option (Option Env)
  | .cons .elem (.infer a) .nil =>
    match v with
    | .str _ => some (some [(a, v)])
    | .string => some (some [(a, v)])
    | .template => some (some [(a, v)])
    | .undef => some none
    | .unknown => some none
    | .num _ => some none
    | .bool _ => some none
    | .tup _ => some none
    | .obj _ => some none
    | _ => none
  | .cons .elem (.infer a) (.cons .elem (.infer b) .nil) =>
    match v with
    | .str [] => some none
    | .str (c :: s) => some (some [(a, .str [c]), (b, .str s)])
    | .undef => some none
    | .unknown => some none
    | .num _ => some none
    | .bool _ => some none
    | .tup _ => some none
    | .obj _ => some none
    | _ => none
  | _ => none

/-- Does an expression contain `infer` at its surface, or a part that may (ts/util.ts:9-12, ts/lex.ts:37-40)? -/
def isPattern : Exp → Bool
  | .infer _ => true
  | .inferExt _ _ => true
  | .tup _ => true
  | .obj _ => true
  | .tmpl _ => true
  | _ => false

/-- `v extends t` without variables (ts/lex.ts:54). -/
def test (U : User) (v t : Ty) : Option Env := if accepts U t v then some [] else none

/-- A conditional type that does not look at its condition: it distributes over `never`
(ts/util.ts:54-58); unions and `any` are outside the fragment. -/
def early (v : Ty) (naked : Bool) : Option (Option Ty) :=
  match v with
  | .never => if naked then some (some .never) else none
  | .any => some none
  | .union _ => some none
  | _ => none

/-- Calls an alias with evaluated arguments (ts/util.ts:7). -/
abbrev Call := Str → List Ty → Option Ty

mutual
/-- The value of a type expression (ts/util.ts:3-107, ts/lex.ts:6-218, ts/parse.ts:5-183). -/
def ev (U : User) (call : Call) (env : Env) : Exp → Option Ty
  | .lit t => some t
  | .ref x .nil => match mget x env with | some v => some v | none => call x []
  | .ref x (.cons h e es) => (evs U call env (.cons h e es)).bind (call x)
  | .idx t k => (ev U call env t).bind fun t => (ev U call env k).bind (access t)
  | .keyof t => (ev U call env t).bind keysOf
  | .arr t => (ev U call env t).map .arr
  | .tup es => (evs U call env es).map .tup
  | .obj ms => (evMems U call env ms).map .obj
  | .union es => (evs U call env es).map .union
  | .tmpl es => (evs U call env es).bind (concat [])
  | .infer _ => none
  | .inferExt _ _ => none
  | .code s xs => U.code s (xs.map fun x => (x, (mget x env).getD .unknown))
  | .cond c e t f =>
    (ev U call env c).bind fun v =>
      match early v (naked env c) with
      | some r => r
      | none =>
        (if isPattern e then mat U call env v e else (ev U call env e).map (test U v)).bind fun r =>
          match r with
          | some b => ev U call (b ++ env) t
          | none => ev U call env f
/-- The values of a list (ts/util.ts:13). -/
def evs (U : User) (call : Call) (env : Env) : Exps → Option (List Ty)
  | .nil => some []
  | .cons .spread e es => (ev U call env e).bind fun t => (evs U call env es).bind (splice t)
  | .cons _ e es => (ev U call env e).bind fun t => (evs U call env es).map (t :: ·)
/-- The values of members (ts/lex.ts:57-59). -/
def evMems (U : User) (call : Call) (env : Env) : Exps → Option (List (Key × Bool × Ty))
  | .nil => some []
  | .cons (.member k o) e es =>
    (ev U call env e).bind fun t => (evMems U call env es).map ((k, o, t) :: ·)
  | .cons _ _ _ => none
/-- `v extends e` for a pattern `e`: the variables bound, or `some none` if it does not hold
(ts/lex.ts:38-41, ts/parse.ts:75-78). -/
def mat (U : User) (call : Call) (env : Env) (v : Ty) : Exp → Option (Option Env)
  | .infer x => some (some [(x, v)])
  | .inferExt x c => (ev U call env c).map fun t => (test U v t).map fun _ => [(x, v)]
  | .tup es =>
    match v with
    | .tup vs => matTup U call env vs es
    | .never => none
    | .any => none
    | .arr _ => none
    | .union _ => none
    | _ => some none
  | .obj ms =>
    match v with
    | .obj vs => matObj U call env vs ms
    | .never => none
    | .any => none
    | .union _ => none
    | _ => some none
  | .tmpl ps => matchTmpl v ps
  | _ => none
/-- Tuple patterns (ts/util.ts:9-12). -/
def matTup (U : User) (call : Call) (env : Env) : List Ty → Exps → Option (Option Env)
  | vs, .nil => some (if vs.isEmpty then some [] else none)
  | vs, .cons .spread e .nil =>
    if isPattern e then mat U call env (.tup vs) e else (ev U call env e).map (test U (.tup vs))
  | _, .cons .spread _ _ => none
  | [], .cons _ _ _ => some none
  | v :: vs, .cons _ e es =>
    (if isPattern e then mat U call env v e else (ev U call env e).map (test U v)).bind fun r =>
      match r with
      | none => some none
      | some b => (matTup U call env vs es).map fun r => r.map (b ++ ·)
/-- Object patterns (ts/parse.ts:147). -/
def matObj (U : User) (call : Call) (env : Env) (vs : List (Key × Bool × Ty)) : Exps → Option (Option Env)
  | .nil => some (some [])
  | .cons (.member k o) e es =>
    match member k vs with
    | some (false, v) =>
      (if isPattern e then mat U call env v e else (ev U call env e).map (test U v)).bind fun r =>
        match r with
        | none => some none
        | some b => (matObj U call env vs es).map fun r => r.map (b ++ ·)
    | some (true, _) => none
    | none => if o then matObj U call env vs es else some none
  | .cons _ _ _ => none
end

/-- The files ts/util.ts, ts/lex.ts, ts/parse.ts, the modules of the generated parser
(src/codegen/parse_gen.rs:137-164), the files with tables only (ts/util.ts:1, ts/lex.ts:1-3), and the
generated parser outside its modules. -/
inductive Mod where
  | util | lex | parse | defs | actions | arith | chars | states | gen
deriving DecidableEq, Repr

/-- A declaration `type x<params> = body` of a file (ts/util.ts:7). -/
structure Def where
  mod : Mod
  params : List Str
  body : Exp

/-- What a name means in a file (imports: ts/lex.ts:1-4, ts/parse.ts:1-3). -/
abbrev Prog := Mod → Str → Option Def

/-- Instantiates an alias; the number bounds the depth of instantiations
(ts/util.ts:7-14). -/
def run (U : User) (P : Prog) : Nat → Mod → Str → List Ty → Option Ty
  | 0, _, _, _ => none
  | n + 1, m, x, args =>
    match P m x with
    | none => none
    | some d => if d.params.length = args.length then ev U (run U P n d.mod) (d.params.zip args) d.body else none

end Verif.MiniTs
