import Verif.Model.MiniTs

/-! # Specification: instantiation with tail calls

README.md:77-78 says that "the type-level code is all tail calls so it should be tail call
optimized".  Here is what that takes: a branch of a conditional type that is itself an
alias does not nest inside the instantiation that chose it, it replaces it.
`runTail N k` instantiates an alias so that at most `k` instantiations are pending at any
time and none is replaced `N` times or more; without tail calls `Verif.MiniTs.run n`
allows `n` to be pending. -/

namespace Verif.MiniTs

/-- What a body comes to: a type, or an alias that takes the place of the one at hand (README.md:77-78). -/
inductive Out where
  | done (t : Ty)
  | tail (x : Str) (args : List Ty)

/-- The value of a type expression in tail position: an alias there is not instantiated
(README.md:77-78).  Everything else, the arguments and the conditions, is as in `ev`. -/
def evTail (U : User) (call : Call) (env : Env) : Exp → Option Out
  | .ref x .nil => match mget x env with | some v => some (.done v) | none => some (.tail x [])
  | .ref x (.cons h e es) => (evs U call env (.cons h e es)).map (.tail x)
  | .cond c e t f =>
    (ev U call env c).bind fun v =>
      match early v (naked env c) with
      | some r => r.map .done
      | none =>
        (if isPattern e then mat U call env v e else (ev U call env e).map (test U v)).bind fun r =>
          match r with
          | some b => evTail U call (b ++ env) t
          | none => evTail U call env f
  | .lit t => some (.done t)
  | .idx t k => (ev U call env (.idx t k)).map .done
  | .keyof t => (ev U call env (.keyof t)).map .done
  | .arr t => (ev U call env (.arr t)).map .done
  | .tup es => (ev U call env (.tup es)).map .done
  | .obj ms => (ev U call env (.obj ms)).map .done
  | .union es => (ev U call env (.union es)).map .done
  | .tmpl es => (ev U call env (.tmpl es)).map .done
  | .infer _ => none
  | .inferExt _ _ => none
  | .code s xs => (ev U call env (.code s xs)).map .done

/-- At most `n` aliases one in the place of the other; those that nest inside are instantiated
by `inner` (README.md:77-78). -/
def chain (U : User) (P : Prog) (inner : Mod → Call) : Nat → Mod → Str → List Ty → Option Ty
  | 0, _, _, _ => none
  | n + 1, m, x, args =>
    match P m x with
    | none => none
    | some d =>
      if d.params.length = args.length then
        match evTail U (inner d.mod) (d.params.zip args) d.body with
        | none => none
        | some (.done t) => some t
        | some (.tail y as) => chain U P inner n d.mod y as
      else none

/-- At most `k` instantiations pending at any time, each in a chain of at most `N` (README.md:77-78). -/
def runTail (U : User) (P : Prog) (N : Nat) : Nat → Mod → Call
  | 0 => fun _ _ _ => none
  | k + 1 => chain U P (runTail U P N k) N

/-- The alias that takes the place of another, if one does (README.md:77-78). -/
def next (U : User) (P : Prog) (inner : Mod → Call) (m : Mod) (x : Str) (args : List Ty) : Option (Mod × Str × List Ty) :=
  match P m x with
  | none => none
  | some d =>
    if d.params.length = args.length then
      match evTail U (inner d.mod) (d.params.zip args) d.body with
      | some (.tail y as) => some (d.mod, y, as)
      | _ => none
    else none

/-- The alias in the place of another after `n` tail calls, if there are so many: an infinite loop
is one with an alias after every `n` (README.md:79-81). -/
def after (U : User) (P : Prog) (inner : Mod → Call) : Nat → Mod → Str → List Ty → Option (Mod × Str × List Ty)
  | 0, m, x, args => some (m, x, args)
  | n + 1, m, x, args => (next U P inner m x args).bind fun s => after U P inner n s.1 s.2.1 s.2.2

end Verif.MiniTs
