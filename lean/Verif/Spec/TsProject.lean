import Verif.Spec.TsUser
import Verif.Model.TsProg

/-! # Specification: a TypeScript project, read from the text of its files

Files with imports, alias declarations and ambient modules; what a name means in each of them. -/

namespace Verif.Spec.TsProject
open Verif MiniTs TsSyntax

/-- `type x<params> = body`. -/
abbrev Decl := Str × List Str × Exp

/-- `import { x, y } from "file"` or `import * as x from "file"`. -/
inductive Import where
  | names (xs : List Str) (file : Str)
  | all (x : Str) (file : Str)

/-- A file: imports, aliases outside modules, modules. -/
structure File where
  imports : List Import
  decls : List Decl
  modules : List (Str × List Decl)

/-- Aliases, as many as follow. -/
def aliases : Nat → List Word → Option (List Decl × List Word)
  | 0, _ => none
  | n + 1, ws =>
    match ws with
    | .punct ';' :: ws => aliases n ws
    | .id w :: .id x :: ws' =>
      if w = "export".toList ∧ x = "type".toList then aliases n (.id x :: ws')
      else if w = "type".toList then do
        let (ps, ws) ← match ws' with
          | .punct '<' :: ws => params n ws
          | ws => some ([], ws)
        match ws with
        | .punct '=' :: ws => do
          let (t, ws) ← type n ws
          let (ds, ws) ← aliases n ws
          return ((x, ps, t) :: ds, ws)
        | _ => none
      else some ([], ws)
    | ws => some ([], ws)

/-- Names up to `}`. -/
def importNames : List Word → Option (List Str × List Word)
  | .punct '}' :: ws => some ([], ws)
  | .punct ',' :: ws => importNames ws
  | .id x :: ws => (importNames ws).map fun r => (x :: r.1, r.2)
  | _ => none

/-- What follows the word `import`. -/
def importClause : List Word → Option (Import × List Word)
  | .punct '*' :: .id a :: .id x :: .id b :: .str f :: ws =>
    if a = "as".toList ∧ b = "from".toList then some (.all x f, ws) else none
  | .punct '{' :: ws =>
    match importNames ws with
    | some (xs, .id b :: .str f :: ws) => if b = "from".toList then some (.names xs f, ws) else none
    | _ => none
  | _ => none

/-- The parts of a file. -/
def items : Nat → List Word → Option File
  | 0, _ => none
  | n + 1, ws =>
    match ws with
    | [] => some ⟨[], [], []⟩
    | .punct ';' :: ws => items n ws
    | .id w :: ws' =>
      if w = "import".toList then do
        let (i, ws) ← importClause ws'
        let F ← items n ws
        return { F with imports := i :: F.imports }
      else
        match ws' with
        | .id d :: .id m :: .id x :: .punct '{' :: ws'' =>
          if w = "export".toList ∧ d = "declare".toList ∧ m = "module".toList then do
            let (ds, ws) ← aliases n ws''
            match ws with
            | .punct '}' :: ws => do
              let F ← items n ws
              return { F with modules := (x, ds) :: F.modules }
            | _ => none
          else do
            let (ds, ws) ← aliases n ws
            match ds with
            | [] => none
            | ds => do
              let F ← items n ws
              return { F with decls := ds ++ F.decls }
        | _ => do
          let (ds, ws) ← aliases n ws
          match ds with
          | [] => none
          | ds => do
            let F ← items n ws
            return { F with decls := ds ++ F.decls }
    | _ => none

/-- The file with this text. -/
def file (text : Str) : Option File := (scan text).bind fun ws => items (2 * ws.length + 2) ws

/-- The file imported by this name. -/
def modOf (f : Str) : Option Mod :=
  if f = "./util".toList then some .util
  else if f = "./lex".toList then some .lex
  else if f = "./chars".toList then some .chars
  else if f = "./lex_state.gen".toList then some .states
  else if f = "./parse_state2.gen".toList then some .gen
  else if f = "./arith_table.gen".toList then some .arith
  else none

/-- A module in a file. -/
def blockOf (x : Str) : Option Mod :=
  if x = "type_defs".toList then some .defs
  else if x = "actions".toList then some .actions
  else none

/-- The declarations of a module.  An alias without parameters of the module `actions` stays a
name: these are types written by the user, which may refer to each other. -/
def moduleDecls (m : Mod) (ds : List Decl) : List (Str × Def) :=
  declare m (match m with
    | .actions => ds.map fun d => if d.2.1 = [] then (d.1, [], .lit (.named d.1)) else d
    | _ => ds)

/-- The names declared in a file. -/
def ownNames (files : Mod → File) (m : Mod) : List (Str × Def) :=
  declare m (files m).decls ++ (files m).modules.flatMap fun b =>
    match blockOf b.1 with
    | some k => qualify (b.1 ++ ['.']) (moduleDecls k b.2)
    | none => []

/-- The names that an import brings into scope. -/
def imported (files : Mod → File) : Import → List (Str × Def)
  | .names xs f =>
    match modOf f with
    | some m => xs.flatMap fun x => (ownNames files m).filter fun e => decide (e.1 = x) || (x ++ ['.']).isPrefixOf e.1
    | none => []
  | .all x f =>
    match modOf f with
    | some m => qualify (x ++ ['.']) (ownNames files m)
    | none => []

/-- The names of a file. -/
def names (files : Mod → File) (m : Mod) : List (Str × Def) :=
  ownNames files m ++ (files m).imports.flatMap (imported files)

/-- The declarations of a module in a file. -/
def block (F : File) (x : Str) : List Decl := (mget x F.modules).getD []

/-- What a name means. -/
def prog (files : Mod → File) : Prog
  | .defs, x => mget x (moduleDecls .defs (block (files .gen) "type_defs".toList) ++ names files .gen)
  | .actions, x => mget x (moduleDecls .actions (block (files .gen) "actions".toList) ++ names files .gen)
  | m, x => mget x (names files m)

/-- The type declared for a name of the module `actions`. -/
def declaredIn (F : File) (k : Str) : Option Ty :=
  ((block F "actions".toList).find? fun d => decide (d.1 = k)).bind fun d => if d.2.1 = [] then declTy d.2.2 else none

/-- The meaning of the user's types; there is no mapping code apart from the files. -/
noncomputable def user (files : Mod → File) : User where
  code _ _ := none
  has := hasDeclared (declaredIn (files .gen))

/-- The expression `e`, written in the file `m`, is the type `t`. -/
def Denotes (files : Mod → File) (m : Mod) (e : Exp) (t : Ty) : Prop :=
  ∃ n, ev (user files) (run (user files) (prog files) n m) [] e = some t

end Verif.Spec.TsProject
