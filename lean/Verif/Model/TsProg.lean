import Verif.Model.TsFiles
import Verif.Model.TsUtil
import Verif.Model.ParseText

/-! # The type-level program: the three files with the generated files

The contents of the generated tables as types, the generated actions as expressions, and
what a name means in each file.  The text of the generated files is in
`Verif.Model.LexText` and `Verif.Model.ParseText`. -/

namespace Verif.MiniTs
open Verif.LexGen (digits)

/-- An object type with numbers as keys (src/codegen/lex_gen.rs:154-169). -/
def objN (l : List (Nat × Ty)) : Ty := .obj (l.map fun e => (.num e.1, false, e.2))

/-- An object type with strings as keys (src/codegen/parse_gen.rs:277-296). -/
def objS (l : List (Str × Ty)) : Ty := .obj (l.map fun e => (.str e.1, false, e.2))

/-- A tuple of numbers (src/codegen/lex_gen.rs:136). -/
def nums (l : List Nat) : Ty := .tup (l.map .num)

/-- A label (src/codegen/lex_gen.rs:121-125). -/
def labelTy (l : Nat × Nat) : Ty := objS [(name! "from", .num l.1), (name! "to", .num l.2)]

/-- A state (src/codegen/lex_gen.rs:114-140). -/
def stateTy (s : LexGen.State) : Ty :=
  objS [(name! "to", nums s.to), (name! "labels", .tup (s.labels.map labelTy)), (name! "accepting", .bool s.accepting)]

/-- A token (src/codegen/lex_gen.rs:94-106). -/
def tokenDefTy (d : Str × Bool) : Ty := objS [(name! "kind", .str d.1), (name! "hasValue", .bool d.2)]

/-- An action (src/codegen/parse_gen.rs:251-255). -/
def actionTy : Action → Ty
  | .shift j => objS [(name! "shift", .num j)]
  | .reduce p => objS [(name! "reduce", .num p)]
  | .accept => objS [(name! "accept", .bool true)]

/-- A production (src/codegen/parse_gen.rs:225-239). -/
def productionTy (p : Str × List Nat) : Ty := objS [(name! "name", .str p.1), (name! "tokens", nums p.2)]

/-- `Symbol` (src/codegen/parse_gen.rs:166-174). -/
def symbolAlts : List Str → Exps
  | [] => .nil
  | k :: ks =>
    .cons .elem (.obj (mem! "kind" false (.lit (.str k)) (mem! "value" false (.ref (name! "actions." ++ k) .nil) .nil)))
      (symbolAlts ks)

/-- `Symbol` (src/codegen/parse_gen.rs:166-174). -/
def symbolExp (ks : List Str) : Exp :=
  .union ((.obj (mem! "kind" false (str! "token") (mem! "token" false (var! "L.Token") .nil))) ;; symbolAlts ks)

/-- `Token` (src/codegen/parse_gen.rs:180-184). -/
def tokenAlts : Exp :=
  .union ((.obj (mem! "kind" false (str! "strlit") (mem! "value" false (.lit .string) .nil))) ;;
    (.obj (mem! "kind" false (str! "nonterminal") (mem! "value" false (.lit .string) .nil))) ;;
    (.obj (mem! "kind" false (str! "regex") (mem! "value" false (.lit .string) .nil))) ;;
    (.obj (mem! "kind" false (str! "eof") .nil)) ;; .nil)

/-- `Production` (src/codegen/parse_gen.rs:215-221). -/
def productionExp : Exp :=
  .obj (mem! "name" false (.lit .string) (mem! "tokens" false (.arr (.keyof (var! "Tokens"))) .nil))

/-- `Tokens` of the module `type_defs` (src/codegen/parse_gen.rs:189-211). -/
def tokenTy : Sym → Ty
  | .strLit s => objS [(name! "kind", .str (name! "strlit")), (name! "value", .str s)]
  | .nonTerm s => objS [(name! "kind", .str (name! "nonterminal")), (name! "value", .str s)]
  | .regex s => objS [(name! "kind", .str (name! "regex")), (name! "value", .str s)]
  | _ => objS [(name! "kind", .str (name! "eof"))]

open ParseGen (Cond Msg Param Act)

/-- A message (src/codegen/parse_gen.rs:488-527). -/
def msgText : Msg → Str
  | .invalidSymbol pos act => name! "error: invalid symbol (pos `" ++ digits pos ++ name! "`, Action" ++ digits act ++ name! ")"
  | .notToken pos act => name! "error: not a token (pos `" ++ digits pos ++ name! "`, Action" ++ digits act ++ name! ")"

/-- The checked type and the pattern of a condition (src/codegen/parse_gen.rs:483-519). -/
def condExp : Cond → Exp × Exp
  | .nonTerm n k =>
    (.ref (name! "__" ++ n) .nil,
     .obj (mem! "kind" false (.lit (.str k)) (mem! "value" false (.inferExt n (.ref k .nil)) .nil)))
  | .isToken n =>
    (.ref (name! "__" ++ n) .nil, .obj (mem! "kind" false (str! "token") (mem! "token" false (var! "L.Token") .nil)))
  | .lit n s =>
    (.idx (.idx (.ref (name! "__" ++ n) .nil) (str! "token")) (str! "value"), .inferExt n (.lit (.str s)))
  | .text n => (.idx (.idx (.ref (name! "__" ++ n) .nil) (str! "token")) (str! "value"), .inferExt n (.lit .string))

/-- The nested conditional type (src/codegen/parse_gen.rs:533-542): the last message belongs
to the first condition. -/
def condsExp (result : Exp) : List Cond → List Msg → Exp
  | [], _ => result
  | c :: cs, es =>
    .cond (condExp c).1 (condExp c).2 (condsExp result cs es.dropLast)
      (.lit (match es.getLast? with | some m => .str (msgText m) | none => .never))

/-- The parameters that the conditions bind (src/codegen/parse_gen.rs:483-519). -/
def bound : List Cond → List Str
  | [] => []
  | .nonTerm n _ :: cs => n :: bound cs
  | .isToken _ :: cs => bound cs
  | .lit n _ :: cs => n :: bound cs
  | .text n :: cs => n :: bound cs

/-- The names inferred from the popped values (src/codegen/parse_gen.rs:425-438). -/
def inferNames : Nat → List Param → List Str
  | _, [] => []
  | i, .named n _ :: ps => (name! "__" ++ n) :: inferNames i ps
  | i, _ :: ps => (name! "var" ++ digits i) :: inferNames (i + 1) ps

/-- A tuple pattern of names (src/codegen/parse_gen.rs:425-438). -/
def inferExps : List Str → Exps
  | [] => .nil
  | x :: xs => .cons .elem (.infer x) (inferExps xs)

/-- `call_impl` (src/codegen/parse_gen.rs:366-389), with the mapping code `v`. -/
def callWith (v : Exp) (a : Act) : Exp :=
  .tup ((.obj (mem! "kind" false (.lit (.str a.name)) (mem! "value" false v .nil))) ;; (var! "newStack") ..; .nil)

/-- `call_impl` (src/codegen/parse_gen.rs:366-389). -/
def callExp (a : Act) : Exp := callWith (.code a.code (bound (ParseGen.validate a).1)) a

/-- The name of an action (src/codegen/parse_gen.rs:394). -/
def actName (i : Nat) : Str := name! "Action" ++ digits i

/-- `Action::write` with `popped_values` (src/codegen/parse_gen.rs:391-463), with the result `r`. -/
def actWith (r : Exp) (a : Act) : Exp :=
  .cond (app! "U.PopNStackWithValue" ((var! "symbolStack") ;; (.lit (.num a.inputs.length)) ;; .nil))
    (.tup ((infer! "newStack") ;; (infer! "poppedValues") ;; .nil))
    (.cond (var! "poppedValues") (.tup (inferExps (inferNames 0 a.inputs)))
      (.cond (var! "newStack") (.arr (var! "type_defs.Symbol"))
        (condsExp r (ParseGen.validate a).1 (ParseGen.validate a).2)
        (.lit (.str (name! "unreachable: `newStack` should always be a type_defs.Symbol[] (Action" ++ digits a.idx ++ name! ")"))))
      (.lit (.str (name! "error: popping off symbol Stack Action" ++ digits a.idx))))
    (str! "unreachable: inferring popped values never fails")

/-- `Action::write` with `popped_values` (src/codegen/parse_gen.rs:391-463). -/
def actExp (a : Act) : Exp := actWith (callExp a) a

/-- `EmitProduction` (src/codegen/parse_gen.rs:311-323). -/
def emitExp : List Act → Exp
  | [] => .tmpl ((str! "error: invalid production idx: ") ;; (var! "prodIdx") ;; .nil)
  | a :: as =>
    .cond (var! "prodIdx") (.lit (.num a.idx)) (.ref (name! "actions." ++ actName a.idx) ((var! "symbolStack") ;; .nil)) (emitExp as)

/-- What the generated files are made of: the size of the arithmetic tables, the characters, the
tables of the lexer and the parser, the tokens of the grammar
(src/codegen/lex_gen.rs:36-42, src/codegen/parse_gen.rs:36-45). -/
structure Gen where
  max : Nat
  chars : List (Nat × Nat)
  lex : LexGen.Tables
  parse : ParseGen.Tables
  tokens : List Sym

/-- What is written for a parser (src/codegen/lex_gen.rs:54-80, 275-288,
src/codegen/parse_gen.rs:603-611). -/
def genOf (max : Nat) (l : Lalr) (T : ParseGen.Tables) : Gen :=
  ⟨max, LexGen.charMap, LexGen.Tables.new l.lexer, T, l.grammar.tokens⟩

/-- A table, declared without parameters (ts/lex.ts:1-3). -/
def table (x : Str) (t : Ty) : Str × Def := (x, ⟨.util, [], .lit t⟩)

/-- The declarations of a file (ts/util.ts:3-107). -/
def declare (m : Mod) (l : List (Str × List Str × Exp)) : List (Str × Def) := l.map fun d => (d.1, ⟨m, d.2.1, d.2.2⟩)

/-- Names imported with a prefix (ts/lex.ts:4, ts/parse.ts:2-3).  Simplification: also those that are
not exported. -/
def qualify (p : Str) (l : List (Str × Def)) : List (Str × Def) := l.map fun d => (p ++ d.1, d.2)

/-- The names of ts/util.ts; the tables are those of src/codegen/lex_gen.rs:323-335. -/
def utilScope (G : Gen) : List (Str × Def) :=
  declare .util utilDecls ++
    [table (name! "SuccTable") (objN ((Ts.succTable G.max).map fun e => (e.1, .num e.2))),
     table (name! "PredTable") (objN ((Ts.predTable G.max).map fun e => (e.1, .num e.2)))]

/-- The names declared in or imported by name into ts/lex.ts (1-4); the tables are those of
src/codegen/lex_gen.rs:82-177, 291-321. -/
def lexNames (G : Gen) : List (Str × Def) :=
  declare .lex lexDecls ++
    [table (name! "Characters") (objN (G.chars.map fun e => (e.2, .str [Char.ofNat e.1]))),
     table (name! "CharTable") (objS (G.chars.map fun e => ([Char.ofNat e.1], .num e.2))),
     table (name! "States") (.tup (G.lex.states.map stateTy)),
     table (name! "Tokens") (objN (G.lex.tokens.map fun e => (e.1, tokenDefTy e.2))),
     table (name! "DFAtoNFA") (objN (G.lex.dfaToNfa.map fun e => (e.1, nums e.2)))]

/-- The names of ts/lex.ts (lines 1-4 and what it declares). -/
def lexScope (G : Gen) : List (Str × Def) := lexNames G ++ qualify (name! "U.") (declare .util utilDecls)

/-- The module `type_defs` (src/codegen/parse_gen.rs:147-156). -/
def defsNames (G : Gen) : List (Str × Def) :=
  [(name! "Symbol", ⟨.defs, [], symbolExp G.parse.symbols⟩),
   (name! "Token", ⟨.defs, [], tokenAlts⟩),
   table (name! "Tokens") (objN (G.tokens.zipIdx.map fun e => (e.2, tokenTy e.1))),
   (name! "Production", ⟨.defs, [], productionExp⟩),
   table (name! "Productions") (objN (G.parse.productions.zipIdx.map fun e => (e.2, productionTy e.1))),
   table (name! "Action") (objN (G.parse.action.map fun r => (r.1, objN (r.2.map fun e => (e.1, actionTy e.2))))),
   table (name! "Goto") (objN (G.parse.goto.map fun r => (r.1, objS (r.2.map fun e => (e.1, .num e.2))))),
   table (name! "TokenKindToIdx") (objS (G.parse.kindToIdx.map fun e => (e.1, .num e.2)))]

/-- The module `actions` (src/codegen/parse_gen.rs:298-344).  The types of the user are opaque. -/
def actionsNames (G : Gen) : List (Str × Def) :=
  (name! "EmitProduction", ⟨.actions, [name! "prodIdx", name! "symbolStack"], emitExp G.parse.acts⟩) ::
    (G.parse.acts.map fun a => (actName a.idx, ⟨.actions, [name! "symbolStack"], actExp a⟩)) ++
    G.parse.symbols.map fun k => table k (.named k)

/-- The names of the generated file from outside its modules (src/codegen/parse_gen.rs:137-164). -/
def genScope (G : Gen) : List (Str × Def) :=
  qualify (name! "U.") (declare .util utilDecls) ++ qualify (name! "L.") (declare .lex lexDecls) ++ qualify (name! "type_defs.") (defsNames G) ++
    qualify (name! "actions.") (actionsNames G)

/-- What a name means in a file (ts/util.ts:1, ts/lex.ts:1-4, ts/parse.ts:1-3,
src/codegen/parse_gen.rs:137-164). -/
def prog (G : Gen) : Prog
  | .util, x => mget x (utilScope G)
  | .lex, x => mget x (lexScope G)
  | .parse, x => mget x (declare .parse parseDecls ++ genScope G)
  | .defs, x => mget x (defsNames G ++ genScope G)
  | .actions, x => mget x (actionsNames G ++ genScope G)
  | _, _ => none

end Verif.MiniTs
