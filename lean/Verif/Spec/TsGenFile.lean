import Verif.Spec.TsProject
import Verif.Spec.Eval

/-! # Specification: the files of a project with a generated parser

What the declarations in the generated files should be. -/

namespace Verif.Spec
open Verif MiniTs TsProject

mutual
/-- A type, written out. -/
def tyExp : Ty → Exp
  | .tup ts => .tup (tyExps ts)
  | .obj ms => .obj (memExps ms)
  | t => .lit t
def tyExps : List Ty → Exps
  | [] => .nil
  | t :: ts => .cons .elem (tyExp t) (tyExps ts)
def memExps : List (Key × Bool × Ty) → Exps
  | [] => .nil
  | (k, o, t) :: ms => .cons (.member k o) (tyExp t) (memExps ms)
end

mutual
/-- Data made of literals and of the names that are known: no conditional types, no type
arguments. -/
def dataExp (known : Str → Prop) : Exp → Prop
  | .lit _ => True
  | .ref x .nil => known x
  | .idx t k => dataExp known t ∧ dataExp known k
  | .keyof t => dataExp known t
  | .arr t => dataExp known t
  | .tup es => dataExps known es
  | .obj es => dataExps known es
  | .union es => dataExps known es
  | .tmpl es => dataExps known es
  | _ => False
def dataExps (known : Str → Prop) : Exps → Prop
  | .nil => True
  | .cons _ e es => dataExp known e ∧ dataExps known es
end

/-- An alias without parameters. -/
def aliasOf (x : Str) (e : Exp) : Decl := (x, [], e)

/-- `{ k: e, ... }`. -/
def objExps (l : List (Key × Exp)) : Exps := l.foldr (fun e es => .cons (.member e.1 false) e.2 es) .nil

/-- `[e, ...]`. -/
def tupExps (l : List Exp) : Exps := l.foldr (fun e es => .cons .elem e es) .nil

/-- The tables of numbers. -/
def arithFile (max : Nat) : File where
  imports := []
  decls := [aliasOf "SuccTable".toList (tyExp (objN ((Ts.succTable max).map fun e => (e.1, .num e.2)))),
    aliasOf "PredTable".toList (tyExp (objN ((Ts.predTable max).map fun e => (e.1, .num e.2))))]
  modules := []

/-- ts/chars.ts. -/
def charsFile (chars : List (Nat × Nat)) : File where
  imports := []
  decls := [aliasOf "Characters".toList (tyExp (objN (chars.map fun e => (e.2, .str [Char.ofNat e.1])))),
    aliasOf "CharTable".toList (tyExp (objS (chars.map fun e => ([Char.ofNat e.1], .num e.2))))]
  modules := []

/-- The tables of the lexer. -/
def statesFile (t : LexGen.Tables) : File where
  imports := []
  decls := (t.tokens.map fun e => aliasOf ("TokenDef".toList ++ LexGen.digits e.1) (tyExp (tokenDefTy e.2))) ++
    [aliasOf "Tokens".toList (.obj (objExps (t.tokens.map fun e => (.num e.1, .ref ("TokenDef".toList ++ LexGen.digits e.1) .nil))))] ++
    (t.states.zipIdx.map fun s => aliasOf ("State".toList ++ LexGen.digits s.2) (tyExp (stateTy s.1))) ++
    [aliasOf "States".toList (.tup (tupExps ((List.range t.states.length).map fun i => .ref ("State".toList ++ LexGen.digits i) .nil))),
      aliasOf "DFAtoNFA".toList (tyExp (objN (t.dfaToNfa.map fun e => (e.1, nums e.2))))]
  modules := []

/-- The type a text stands for. -/
def readD (text : Str) : Exp := (readType text).getD (.lit .never)

/-- The generated parser. -/
def genFile (ps : List Ast.Prod) (G : Gen) : File where
  imports := [.all "U".toList "./util".toList, .all "L".toList "./lex".toList]
  decls := []
  modules := [
    ("type_defs".toList, [
      aliasOf "Symbol".toList (symbolExp G.parse.symbols),
      aliasOf "Token".toList tokenAlts,
      aliasOf "Tokens".toList (tyExp (objN (G.tokens.zipIdx.map fun e => (e.2, tokenTy e.1)))),
      aliasOf "Production".toList productionExp,
      aliasOf "Productions".toList (tyExp (objN (G.parse.productions.zipIdx.map fun e => (e.2, productionTy e.1)))),
      aliasOf "Action".toList (tyExp (objN (G.parse.action.map fun r => (r.1, objN (r.2.map fun e => (e.1, actionTy e.2)))))),
      aliasOf "Goto".toList (tyExp (objN (G.parse.goto.map fun r => (r.1, objS (r.2.map fun e => (e.1, .num e.2)))))),
      aliasOf "TokenKindToIdx".toList (tyExp (objS (G.parse.kindToIdx.map fun e => (e.1, .num e.2))))]),
    ("actions".toList, ((ParseGen.variants ps).map fun v => aliasOf v.1 (readD v.2)) ++
      ("EmitProduction".toList, ["prodIdx".toList, "symbolStack".toList], emitExp G.parse.acts) ::
      G.parse.acts.map fun a => (actName a.idx, ["symbolStack".toList], actWith (callWith (readD a.code) a) a))]

/-- The files of the project. -/
def projectOf (ps : List Ast.Prod) (G : Gen) : Mod → File
  | .util => ⟨[.names ["SuccTable".toList, "PredTable".toList] "./arith_table.gen".toList], utilDecls, []⟩
  | .lex => ⟨[.names ["Characters".toList, "CharTable".toList] "./chars".toList,
      .names ["States".toList, "Tokens".toList, "DFAtoNFA".toList] "./lex_state.gen".toList,
      .all "U".toList "./util".toList], lexDecls, []⟩
  | .parse => ⟨[.names ["type_defs".toList, "actions".toList] "./parse_state2.gen".toList,
      .all "U".toList "./util".toList, .all "L".toList "./lex".toList], parseDecls, []⟩
  | .arith => arithFile G.max
  | .chars => charsFile G.chars
  | .states => statesFile G.lex
  | .gen => genFile ps G
  | _ => ⟨[], [], []⟩

/-- The declared types and the mapping code of a grammar can be read; the code is data made of
literals, the named symbols of its body and the names of productions. -/
structure Readable (ps : List Ast.Prod) : Prop where
  types : ∀ p ∈ ps, (readType p.tsCode).isSome = true
  code : ∀ p ∈ ps, ∀ b ∈ p.bodies, ∃ e, readType b.mapping = some e ∧
    dataExp (fun x => x ∈ Spec.names b.inputs ∨ ∃ q ∈ ps, q.name = x) e

end Verif.Spec
