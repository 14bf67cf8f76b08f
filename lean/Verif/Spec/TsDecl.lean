import Verif.Spec.TsText

/-! # Specification: type declarations of TypeScript

A reader for the fragment of TypeScript in the generated tables: modules, type
declarations, object types, tuples, unions, `keyof`, type application, literals and
names.  Members of an object type and declarations are separated by `;`, by `,`
(members only) or by a line break; elements of a tuple by `,`. -/

namespace Verif.Spec
open Verif

/-- The name of a member. -/
inductive TsKey where
  | num (n : Nat)
  | name (s : Str)
deriving DecidableEq, Repr

/-- Types.  `true`, `false`, `string` are names, and so is a dotted name. -/
inductive TsTy where
  | num (n : Nat)
  | str (s : Str)
  | name (s : Str)
  | tuple (ts : List TsTy)
  | obj (ms : List (TsKey × TsTy))
  | union (ts : List TsTy)
  | keyof (t : TsTy)
  | app (s : Str) (t : TsTy)
deriving Repr

/-- What the reader is inside of. -/
inductive Inside where
  /-- `module name {` -/
  | modl (name : Str)
  /-- the first words of a statement -/
  | stmt (ws : List Str)
  /-- `type name =` -/
  | decl (name : Str)
  /-- `{` and the members so far -/
  | obj (ms : List (TsKey × TsTy))
  /-- the name of a member -/
  | key (k : TsKey)
  /-- the name of a member and its colon -/
  | member (k : TsKey)
  /-- `[` and the elements so far -/
  | tuple (ts : List TsTy)
  | union (ts : List TsTy)
  | keyof
  /-- `name.` -/
  | dot (s : Str)
  /-- `name<` -/
  | app (s : Str)
deriving Repr

structure Reader where
  /-- innermost first -/
  inside : List Inside
  /-- the type just read -/
  cur : Option TsTy
  /-- a line break since the last word -/
  brk : Bool
  decls : List (Str × TsTy)
deriving Repr

/-- A type is expected. -/
def wantsType : List Inside → Bool
  | .decl _ :: _ => true
  | .member _ :: _ => true
  | .tuple _ :: _ => true
  | .union _ :: _ => true
  | .keyof :: _ => true
  | .app _ :: _ => true
  | _ => false

/-- `keyof` binds tighter than `|`. -/
def closeKeyof : List Inside → TsTy → List Inside × TsTy
  | .keyof :: fs, t => closeKeyof fs (.keyof t)
  | fs, t => (fs, t)

/-- The whole union that ends with the type just read. -/
def closeUnion (fs : List Inside) (t : TsTy) : List Inside × TsTy :=
  match closeKeyof fs t with
  | (.union ts :: fs, t) => (fs, .union (ts ++ [t]))
  | (fs, t) => (fs, t)

/-- The end of a member or of a declaration. -/
def endType (ds : List (Str × TsTy)) (fs : List Inside) (t : TsTy) : Option Reader :=
  match closeUnion fs t with
  | (.member k :: .obj ms :: fs, t) => some ⟨.obj (ms ++ [(k, t)]) :: fs, none, false, ds⟩
  | (.decl n :: fs, t) => some ⟨fs, none, false, ds ++ [(n, t)]⟩
  | _ => none

/-- A word where no type has just been read. -/
def readWord (ds : List (Str × TsTy)) (fs : List Inside) (w : Str) : Option Reader :=
  match fs with
  | [] => some ⟨[.stmt [w]], none, false, ds⟩
  | .modl m :: fs => some ⟨.stmt [w] :: .modl m :: fs, none, false, ds⟩
  | .stmt ws :: fs => some ⟨.stmt (ws ++ [w]) :: fs, none, false, ds⟩
  | .obj ms :: fs => some ⟨.key (.name w) :: .obj ms :: fs, none, false, ds⟩
  | .dot s :: fs => some ⟨fs, some (.name (s ++ '.' :: w)), false, ds⟩
  | fs =>
    if wantsType fs then
      (if w = "keyof".toList then some ⟨.keyof :: fs, none, false, ds⟩ else some ⟨fs, some (.name w), false, ds⟩)
    else none

/-- A literal where no type has just been read. -/
def readLit (ds : List (Str × TsTy)) (fs : List Inside) (k : TsKey) (t : TsTy) : Option Reader :=
  match fs with
  | .obj ms :: fs => some ⟨.key k :: .obj ms :: fs, none, false, ds⟩
  | fs => if wantsType fs then some ⟨fs, some t, false, ds⟩ else none

/-- The words that begin a type declaration or a module. -/
def openStmt (ds : List (Str × TsTy)) (fs : List Inside) (ws : List Str) (c : Char) : Option Reader :=
  match ws with
  | [a, n] => if a = "type".toList ∧ c = '=' then some ⟨.decl n :: fs, none, false, ds⟩ else none
  | [a, b, n] =>
    if a = "export".toList ∧ b = "type".toList ∧ c = '=' then some ⟨.decl n :: fs, none, false, ds⟩ else none
  | [a, b, m, n] =>
    if a = "export".toList ∧ b = "declare".toList ∧ m = "module".toList ∧ c = '{' then some ⟨.modl n :: fs, none, false, ds⟩
    else none
  | _ => none

/-- Punctuation where no type has just been read. -/
def readPunct (ds : List (Str × TsTy)) (fs : List Inside) (c : Char) : Option Reader :=
  match fs with
  | .stmt ws :: fs => openStmt ds fs ws c
  | .key k :: fs => if c = ':' then some ⟨.member k :: fs, none, false, ds⟩ else none
  | .obj ms :: fs => if c = '}' then some ⟨fs, some (.obj ms), false, ds⟩ else none
  | .modl m :: fs =>
    if c = '}' then some ⟨fs, none, false, ds⟩ else if c = ';' then some ⟨.modl m :: fs, none, false, ds⟩ else none
  | [] => if c = ';' then some ⟨[], none, false, ds⟩ else none
  | fs =>
    if wantsType fs = false then none
    else if c = '{' then some ⟨.obj [] :: fs, none, false, ds⟩
    else if c = '[' then some ⟨.tuple [] :: fs, none, false, ds⟩
    else
      match fs with
      | .tuple ts :: fs => if c = ']' then some ⟨fs, some (.tuple ts), false, ds⟩ else none
      | .decl n :: fs => if c = '|' then some ⟨.decl n :: fs, none, false, ds⟩ else none
      | _ => none

/-- Punctuation after a type. -/
def afterType (ds : List (Str × TsTy)) (fs : List Inside) (t : TsTy) (c : Char) : Option Reader :=
  if c = '|' then
    match closeKeyof fs t with
    | (.union ts :: fs, t) => some ⟨.union (ts ++ [t]) :: fs, none, false, ds⟩
    | (fs, t) => some ⟨.union [t] :: fs, none, false, ds⟩
  else if c = '.' then
    match t with
    | .name s => some ⟨.dot s :: fs, none, false, ds⟩
    | _ => none
  else if c = '<' then
    match t with
    | .name s => some ⟨.app s :: fs, none, false, ds⟩
    | _ => none
  else
    match closeUnion fs t with
    | (.member k :: .obj ms :: fs, t) =>
      if c = ',' ∨ c = ';' then some ⟨.obj (ms ++ [(k, t)]) :: fs, none, false, ds⟩
      else if c = '}' then some ⟨fs, some (.obj (ms ++ [(k, t)])), false, ds⟩
      else none
    | (.tuple ts :: fs, t) =>
      if c = ',' then some ⟨.tuple (ts ++ [t]) :: fs, none, false, ds⟩
      else if c = ']' then some ⟨fs, some (.tuple (ts ++ [t])), false, ds⟩
      else none
    | (.app s :: fs, t) => if c = '>' then some ⟨fs, some (.app s t), false, ds⟩ else none
    | (.decl n :: fs, t) =>
      if c = ';' then some ⟨fs, none, false, ds ++ [(n, t)]⟩
      else if c = '}' then
        match fs with
        | .modl _ :: fs => some ⟨fs, none, false, ds ++ [(n, t)]⟩
        | _ => none
      else none
    | _ => none

/-- One word. -/
def readStep (r : Reader) (tok : TsTok) : Option Reader :=
  match tok with
  | .newline => some { r with brk := true }
  | .punct c =>
    match r.cur with
    | none => readPunct r.decls r.inside c
    | some t => afterType r.decls r.inside t c
  | .word w =>
    match r.cur with
    | none => readWord r.decls r.inside w
    | some t => if r.brk then (endType r.decls r.inside t).bind fun r => readWord r.decls r.inside w else none
  | .num n =>
    match r.cur with
    | none => readLit r.decls r.inside (.num n) (.num n)
    | some t => if r.brk then (endType r.decls r.inside t).bind fun r => readLit r.decls r.inside (.num n) (.num n) else none
  | .str s =>
    match r.cur with
    | none => readLit r.decls r.inside (.name s) (.str s)
    | some t => if r.brk then (endType r.decls r.inside t).bind fun r => readLit r.decls r.inside (.name s) (.str s) else none

/-- The declarations among the words. -/
def readToks : Reader → List TsTok → Option Reader
  | r, [] => some r
  | r, t :: ts => (readStep r t).bind fun r => readToks r ts

/-- The end of the text. -/
def readEnd (r : Reader) : Option (List (Str × TsTy)) :=
  match r.cur with
  | none => if r.inside.isEmpty then some r.decls else none
  | some t => (endType r.decls r.inside t).bind fun r => if r.inside.isEmpty then some r.decls else none

/-- The declarations of a text, in order; `none` if it is not well formed. -/
def readText (text : Str) : Option (List (Str × TsTy)) :=
  (scanText text).bind fun toks => (readToks ⟨[], none, false, []⟩ toks).bind readEnd

end Verif.Spec
