import Verif.Proofs.ParseTextOk

/-! # Reading the module `type_defs` -/

namespace Verif.Spec
open Verif LexGen ParseGen

/-- A member ended by a line break. -/
theorem InObj.mk (ms : List (TsKey × TsTy)) (fs : List Inside) (ds : List (Str × TsTy)) (k : TsKey) (t : TsTy) :
    InObj (ms ++ [(k, t)]) fs ds ⟨.member k :: .obj ms :: fs, some t, true, ds⟩ := .member rfl rfl

/-- The members of an object and its end. -/
theorem read_obj {α : Type} {toks : α → List TsTok} {mem : α → TsKey × TsTy} {fs : List Inside} {ds : List (Str × TsTy)}
    (l : List α) (h : ∀ a ∈ l, ∀ ms r rest, InObj ms fs ds r → ∃ r', InObj (ms ++ [mem a]) fs ds r' ∧
      readToks r (toks a ++ rest) = readToks r' rest) (rest : List TsTok) :
    readToks ⟨.obj [] :: fs, none, false, ds⟩ (l.flatMap toks ++ .newline :: .punct '}' :: rest) =
      readToks ⟨fs, some (.obj (l.map mem)), false, ds⟩ rest := by
  obtain ⟨r1, h1, e1⟩ := read_members l h [] ⟨.obj [] :: fs, none, false, ds⟩ (.newline :: .punct '}' :: rest) (.here _)
  obtain ⟨r2, h2, e2⟩ := h1.newline (.punct '}' :: rest)
  rw [e1, e2, h2.close, List.nil_append]

abbrev inMod : List Inside := [.modl "type_defs".toList]

def tokenSymTy : TsTy := .obj [(.name "kind".toList, .str "token".toList), (.name "token".toList, .name "L.Token".toList)]

def symbolTy (s : Str) : TsTy :=
  .obj [(.name "kind".toList, .str s), (.name "value".toList, .name ("actions".toList ++ '.' :: s))]

def symbolsTy (ss : List Str) : TsTy := if ss = [] then tokenSymTy else .union (tokenSymTy :: ss.map symbolTy)

theorem read_union (ds : List (Str × TsTy)) (fs : List Inside) (n : Str) : ∀ (ss : List Str) (ts : List TsTy) (t : TsTy) (rest : List TsTok),
    ∃ t' ts', readToks ⟨.union ts :: .decl n :: fs, some t, false, ds⟩ (ss.flatMap symbolToks ++ rest) =
      readToks ⟨.union ts' :: .decl n :: fs, some t', false, ds⟩ rest ∧ ts' ++ [t'] = ts ++ [t] ++ ss.map symbolTy
  | [], ts, t, rest => ⟨t, ts, rfl, by simp⟩
  | s :: ss, ts, t, rest => by
    obtain ⟨t', ts', e, h⟩ := read_union ds fs n ss (ts ++ [t]) (symbolTy s) rest
    refine ⟨t', ts', ?_, by rw [h]; simp⟩
    rw [← e]
    rfl

theorem read_symbols (ss : List Str) (r : Reader) (ds : List (Str × TsTy)) (rest : List TsTok) (h : Ready inMod ds r) :
    ∃ r', Ready inMod (ds ++ [("Symbol".toList, symbolsTy ss)]) r' ∧ readToks r (symbolsToks ss ++ rest) = readToks r' rest := by
  simp only [symbolsToks, List.cons_append, List.nil_append, List.append_assoc]
  rw [h.word]
  cases ss with
  | nil => exact ⟨⟨.decl "Symbol".toList :: inMod, some tokenSymTy, true, ds⟩, .pending rfl, rfl⟩
  | cons s ss =>
    obtain ⟨t', ts', e, h'⟩ := read_union ds inMod "Symbol".toList ss [tokenSymTy] (symbolTy s) (.newline :: .newline :: rest)
    refine ⟨⟨.union ts' :: .decl "Symbol".toList :: inMod, some t', true, ds⟩, .pending ?_, ?_⟩
    · have : symbolsTy (s :: ss) = .union (ts' ++ [t']) := by rw [h']; simp [symbolsTy]
      rw [this]
      rfl
    · exact e

def kindTy (k : Str) : TsTy := .obj [(.name "kind".toList, .str k), (.name "value".toList, .name "string".toList)]

def tokenTy : TsTy := .union [kindTy "strlit".toList, kindTy "nonterminal".toList, kindTy "regex".toList,
  .obj [(.name "kind".toList, .str "eof".toList)]]

theorem read_tokenType (r : Reader) (ds : List (Str × TsTy)) (rest : List TsTok) (h : Ready inMod ds r) :
    readToks r (tokenTypeToks ++ rest) = readToks ⟨inMod, none, true, ds ++ [("Token".toList, tokenTy)]⟩ rest := by
  simp only [tokenTypeToks, List.cons_append, List.nil_append]
  obtain ⟨r1, h1, e1⟩ := h.newline _
  rw [e1, h1.word]
  rfl

def tokenMem (p : Sym × Nat) : TsKey × TsTy :=
  (.num p.2, match tokenKind p.1 with
    | some (k, v) => .obj [(.name "kind".toList, .str k), (.name "value".toList, .str v)]
    | none => .obj [(.name "kind".toList, .str "eof".toList)])

/-- A member that is complete but for the line break after it. -/
inductive AtMember (ms : List (TsKey × TsTy)) (fs : List Inside) (ds : List (Str × TsTy)) : Reader → Prop
  | first : AtMember ms fs ds ⟨.obj ms :: fs, none, false, ds⟩
  | after {ms₀ k t} : ms = ms₀ ++ [(k, t)] → AtMember ms fs ds ⟨.member k :: .obj ms₀ :: fs, some t, false, ds⟩

theorem AtMember.newline {ms fs ds r} (h : AtMember ms fs ds r) (rest : List TsTok) : ∃ r', InObj ms fs ds r' ∧
    readToks r (.newline :: rest) = readToks r' rest := by
  cases h with
  | first => exact ⟨_, .here true, rfl⟩
  | after e => subst e; exact ⟨_, .mk _ _ _ _ _, rfl⟩

theorem read_token (p : Sym × Nat) (ms : List (TsKey × TsTy)) (fs : List Inside) (ds : List (Str × TsTy)) (r : Reader)
    (rest : List TsTok) (h : AtMember ms fs ds r) :
    ∃ r', AtMember (ms ++ [tokenMem p]) fs ds r' ∧ readToks r (tokenToks p ++ rest) = readToks r' rest := by
  refine ⟨⟨.member (.num p.2) :: .obj ms :: fs, some (tokenMem p).2, false, ds⟩, .after rfl, ?_⟩
  unfold tokenToks tokenMem
  cases tokenKind p.1 with
  | none =>
    simp only [List.cons_append, List.nil_append]
    obtain ⟨r1, h1, e1⟩ := h.newline (.num p.2 :: .punct ':' :: .punct '{' :: .word "kind".toList :: .punct ':' ::
      .str "eof".toList :: .punct '}' :: rest)
    rw [e1, h1.ready.num]
    rfl
  | some kv =>
    simp only [List.cons_append, List.nil_append]
    obtain ⟨r1, h1, e1⟩ := h.newline (.num p.2 :: .punct ':' :: .punct '{' :: .word "kind".toList :: .punct ':' ::
      .str kv.1 :: .punct ',' :: .word "value".toList :: .punct ':' :: .str kv.2 :: .punct '}' :: rest)
    rw [e1, h1.ready.num]
    rfl

theorem read_tokenList (fs : List Inside) (ds : List (Str × TsTy)) : ∀ (l : List (Sym × Nat)) (ms : List (TsKey × TsTy)) (r : Reader)
    (rest : List TsTok), AtMember ms fs ds r →
    ∃ r', AtMember (ms ++ l.map tokenMem) fs ds r' ∧ readToks r (l.flatMap tokenToks ++ rest) = readToks r' rest
  | [], ms, r, rest, h => ⟨r, by simpa using h, rfl⟩
  | p :: l, ms, r, rest, h => by
    obtain ⟨r1, h1, e1⟩ := read_token p ms fs ds r (l.flatMap tokenToks ++ rest) h
    obtain ⟨r2, h2, e2⟩ := read_tokenList fs ds l _ r1 rest h1
    refine ⟨r2, by simpa using h2, ?_⟩
    rw [List.flatMap_cons, List.append_assoc, e1, e2]

theorem read_tokens (ts : List Sym) (r : Reader) (ds : List (Str × TsTy)) (rest : List TsTok) (h : Ready inMod ds r) :
    ∃ r', Ready inMod (ds ++ [("Token".toList, tokenTy), ("Tokens".toList, .obj (ts.zipIdx.map tokenMem))]) r' ∧
      readToks r (tokensToks ts ++ rest) = readToks r' rest := by
  simp only [tokensToks, List.append_assoc]
  rw [read_tokenType r ds _ h]
  generalize hA : ds ++ [("Token".toList, tokenTy)] = A
  have hA' : ds ++ [("Token".toList, tokenTy), ("Tokens".toList, .obj (ts.zipIdx.map tokenMem))] =
      A ++ [("Tokens".toList, .obj (ts.zipIdx.map tokenMem))] := by rw [← hA]; simp
  rw [hA']
  refine ⟨⟨.decl "Tokens".toList :: inMod, some (.obj (ts.zipIdx.map tokenMem)), true, A⟩, .pending rfl, ?_⟩
  simp only [List.cons_append, List.nil_append]
  have e0 : ∀ rest, readToks ⟨inMod, none, true, A⟩ (.word "export".toList :: .word "type".toList :: .word "Tokens".toList :: .punct '=' ::
      .punct '{' :: rest) = readToks ⟨.obj [] :: .decl "Tokens".toList :: inMod, none, false, A⟩ rest := fun _ => rfl
  rw [e0]
  obtain ⟨r1, h1, e1⟩ := read_tokenList (.decl "Tokens".toList :: inMod) A ts.zipIdx [] _
    (.newline :: .punct '}' :: .newline :: .newline :: rest) .first
  obtain ⟨r2, h2, e2⟩ := h1.newline (.punct '}' :: .newline :: .newline :: rest)
  rw [e1, e2, h2.close, List.nil_append]
  rfl

def productionTy : TsTy := .obj [(.name "name".toList, .name "string".toList),
  (.name "tokens".toList, .app "Array".toList (.keyof (.name "Tokens".toList)))]

theorem read_productionType (r : Reader) (ds : List (Str × TsTy)) (rest : List TsTok) (h : Ready inMod ds r) :
    readToks r (productionTypeToks ++ rest) = readToks ⟨inMod, none, true, ds ++ [("Production".toList, productionTy)]⟩ rest := by
  simp only [productionTypeToks, List.cons_append, List.nil_append]
  rw [h.word]
  rfl

def productionMem (p : (Str × List Nat) × Nat) : TsKey × TsTy :=
  (.num p.2, .obj [(.name "name".toList, .str p.1.1), (.name "tokens".toList, .tuple (p.1.2.map .num))])

/-- Numbers, each with a comma after it. -/
theorem read_numsComma (fs : List Inside) (ds : List (Str × TsTy)) : ∀ (l : List Nat) (ts : List TsTy) (rest : List TsTok),
    readToks ⟨.tuple ts :: fs, none, false, ds⟩ (l.flatMap (fun k => [.num k, .punct ',']) ++ .punct ']' :: rest) =
      readToks ⟨fs, some (.tuple (ts ++ l.map .num)), false, ds⟩ rest
  | [], ts, rest => by simp only [List.flatMap_nil, List.nil_append, List.map_nil, List.append_nil]; rfl
  | n :: l, ts, rest => by
    have := read_numsComma fs ds l (ts ++ [.num n]) rest
    rw [List.map_cons, show ts ++ TsTy.num n :: l.map TsTy.num = (ts ++ [.num n]) ++ l.map TsTy.num by simp, ← this]
    rfl

theorem read_production (p : (Str × List Nat) × Nat) (ms : List (TsKey × TsTy)) (fs : List Inside) (ds : List (Str × TsTy))
    (r : Reader) (rest : List TsTok) (h : InObj ms fs ds r) :
    ∃ r', InObj (ms ++ [productionMem p]) fs ds r' ∧ readToks r (productionToks p ++ rest) = readToks r' rest := by
  refine ⟨_, .mk _ _ _ _ _, ?_⟩
  simp only [productionToks, List.cons_append, List.nil_append, List.append_assoc]
  rw [h.ready.num]
  exact Eq.trans (read_numsComma (.member (.name "tokens".toList) :: .obj [(.name "name".toList, .str p.1.1)] ::
    .member (.num p.2) :: .obj ms :: fs) ds p.1.2 [] _) rfl

theorem read_productions (ps : List (Str × List Nat)) (r : Reader) (ds : List (Str × TsTy)) (rest : List TsTok) (h : Ready inMod ds r) :
    ∃ r', Ready inMod (ds ++ [("Production".toList, productionTy), ("Productions".toList, .obj (ps.zipIdx.map productionMem))]) r' ∧
      readToks r (productionsToks ps ++ rest) = readToks r' rest := by
  simp only [productionsToks, List.append_assoc]
  rw [read_productionType r ds _ h]
  generalize hA : ds ++ [("Production".toList, productionTy)] = A
  have hA' : ds ++ [("Production".toList, productionTy), ("Productions".toList, .obj (ps.zipIdx.map productionMem))] =
      A ++ [("Productions".toList, .obj (ps.zipIdx.map productionMem))] := by rw [← hA]; simp
  rw [hA']
  refine ⟨⟨.decl "Productions".toList :: inMod, some (.obj (ps.zipIdx.map productionMem)), true, A⟩, .pending rfl, ?_⟩
  exact Eq.trans (read_obj ps.zipIdx (fun p _ ms r rest h => read_production p ms (.decl "Productions".toList :: inMod) A r rest h)
    (.newline :: .newline :: rest)) rfl

def actionTy : Action → TsTy
  | .shift j => .obj [(.name "shift".toList, .num j)]
  | .reduce r => .obj [(.name "reduce".toList, .num r)]
  | .accept => .obj [(.name "accept".toList, .name "true".toList)]

def actionMem (e : Nat × Action) : TsKey × TsTy := (.num e.1, actionTy e.2)

theorem read_actionEntry (e : Nat × Action) (ms : List (TsKey × TsTy)) (fs : List Inside) (ds : List (Str × TsTy))
    (r : Reader) (rest : List TsTok) (h : InObj ms fs ds r) :
    ∃ r', InObj (ms ++ [actionMem e]) fs ds r' ∧ readToks r (actionEntryToks e ++ rest) = readToks r' rest := by
  refine ⟨_, .mk _ _ _ _ _, ?_⟩
  simp only [actionEntryToks, List.cons_append, List.nil_append, List.append_assoc]
  rw [h.ready.num]
  obtain ⟨k, a⟩ := e
  cases a <;> rfl

def actionRowMem (r : Nat × List (Nat × Action)) : TsKey × TsTy := (.num r.1, .obj (r.2.map actionMem))

theorem read_actionRow (e : Nat × List (Nat × Action)) (ms : List (TsKey × TsTy)) (fs : List Inside) (ds : List (Str × TsTy))
    (r : Reader) (rest : List TsTok) (h : InObj ms fs ds r) :
    ∃ r', InObj (ms ++ [actionRowMem e]) fs ds r' ∧ readToks r (actionRowToks e ++ rest) = readToks r' rest := by
  refine ⟨_, .mk _ _ _ _ _, ?_⟩
  simp only [actionRowToks, List.cons_append, List.nil_append, List.append_assoc]
  rw [h.ready.num]
  exact Eq.trans (read_obj e.2 (fun a _ ms' r rest h => read_actionEntry a ms' (.member (.num e.1) :: .obj ms :: fs) ds r rest h)
    (.newline :: rest)) rfl

theorem read_actionTable (t : Table Nat Action) (r : Reader) (ds : List (Str × TsTy)) (rest : List TsTok) (h : Ready inMod ds r) :
    ∃ r', Ready inMod (ds ++ [("Action".toList, .obj (t.map actionRowMem))]) r' ∧
      readToks r (actionTableToks t ++ rest) = readToks r' rest := by
  refine ⟨⟨.decl "Action".toList :: inMod, some (.obj (t.map actionRowMem)), true, ds⟩, .pending rfl, ?_⟩
  simp only [actionTableToks, List.cons_append, List.nil_append, List.append_assoc]
  rw [h.word]
  exact Eq.trans (read_obj t (fun e _ ms r rest h => read_actionRow e ms (.decl "Action".toList :: inMod) ds r rest h)
    (.newline :: rest)) rfl

def gotoMem (e : Str × Nat) : TsKey × TsTy := (.name e.1, .num e.2)

theorem read_gotoEntry (e : Str × Nat) (ms : List (TsKey × TsTy)) (fs : List Inside) (ds : List (Str × TsTy))
    (r : Reader) (rest : List TsTok) (h : InObj ms fs ds r) :
    ∃ r', InObj (ms ++ [gotoMem e]) fs ds r' ∧ readToks r (gotoEntryToks e ++ rest) = readToks r' rest := by
  refine ⟨_, .mk _ _ _ _ _, ?_⟩
  simp only [gotoEntryToks, List.cons_append, List.nil_append]
  obtain ⟨r1, h1, e1⟩ := h.newline (.word e.1 :: .punct ':' :: .num e.2 :: .newline :: rest)
  rw [e1, h1.ready.word]
  rfl

def gotoRowMem (r : Nat × List (Str × Nat)) : TsKey × TsTy := (.num r.1, .obj (r.2.map gotoMem))

theorem read_gotoRow (e : Nat × List (Str × Nat)) (ms : List (TsKey × TsTy)) (fs : List Inside) (ds : List (Str × TsTy))
    (r : Reader) (rest : List TsTok) (h : InObj ms fs ds r) :
    ∃ r', InObj (ms ++ [gotoRowMem e]) fs ds r' ∧ readToks r (gotoRowToks e ++ rest) = readToks r' rest := by
  refine ⟨_, .mk _ _ _ _ _, ?_⟩
  simp only [gotoRowToks, List.cons_append, List.nil_append, List.append_assoc]
  rw [h.ready.num]
  exact Eq.trans (read_obj e.2 (fun a _ ms' r rest h => read_gotoEntry a ms' (.member (.num e.1) :: .obj ms :: fs) ds r rest h)
    (.newline :: rest)) rfl

theorem read_gotoTable (t : Table Str Nat) (r : Reader) (ds : List (Str × TsTy)) (rest : List TsTok) (h : Ready inMod ds r) :
    ∃ r', Ready inMod (ds ++ [("Goto".toList, .obj (t.map gotoRowMem))]) r' ∧
      readToks r (gotoTableToks t ++ rest) = readToks r' rest := by
  refine ⟨⟨.decl "Goto".toList :: inMod, some (.obj (t.map gotoRowMem)), true, ds⟩, .pending rfl, ?_⟩
  simp only [gotoTableToks, List.cons_append, List.nil_append, List.append_assoc]
  rw [h.word]
  exact Eq.trans (read_obj t (fun e _ ms r rest h => read_gotoRow e ms (.decl "Goto".toList :: inMod) ds r rest h)
    (.newline :: rest)) rfl

theorem read_kind (e : Str × Nat) (ms : List (TsKey × TsTy)) (fs : List Inside) (ds : List (Str × TsTy))
    (r : Reader) (rest : List TsTok) (h : InObj ms fs ds r) :
    ∃ r', InObj (ms ++ [gotoMem e]) fs ds r' ∧ readToks r (kindToks e ++ rest) = readToks r' rest := by
  refine ⟨_, .mk _ _ _ _ _, ?_⟩
  simp only [kindToks, List.cons_append, List.nil_append]
  rw [h.ready.str]
  rfl

def typeDefsDecls (t : ParseGen.Tables) (ts : List Sym) : List (Str × TsTy) :=
  [("Symbol".toList, symbolsTy t.symbols), ("Token".toList, tokenTy), ("Tokens".toList, .obj (ts.zipIdx.map tokenMem)),
    ("Production".toList, productionTy), ("Productions".toList, .obj (t.productions.zipIdx.map productionMem)),
    ("Action".toList, .obj (t.action.map actionRowMem)), ("Goto".toList, .obj (t.goto.map gotoRowMem)),
    ("TokenKindToIdx".toList, .obj (t.kindToIdx.map gotoMem))]

theorem read_typeDefsToks (t : ParseGen.Tables) (ts : List Sym) :
    (readToks ⟨[], none, false, []⟩ (typeDefsToks t ts)).bind readEnd = some (typeDefsDecls t ts) := by
  have e0 : ∀ rest, readToks ⟨[], none, false, []⟩ (.word "export".toList :: .word "declare".toList :: .word "module".toList ::
      .word "type_defs".toList :: .punct '{' :: .newline :: rest) = readToks ⟨inMod, none, true, []⟩ rest := fun _ => rfl
  simp only [typeDefsToks, List.cons_append, List.nil_append]
  rw [e0]
  obtain ⟨r1, h1, e1⟩ := read_symbols t.symbols ⟨inMod, none, true, []⟩ [] (tokensToks ts ++ (productionsToks t.productions ++
    (actionTableToks t.action ++ (gotoTableToks t.goto ++ (kindsToks t.kindToIdx ++ [.newline, .punct '}', .newline]))))) (.here _)
  obtain ⟨r2, h2, e2⟩ := read_tokens ts r1 _ (productionsToks t.productions ++
    (actionTableToks t.action ++ (gotoTableToks t.goto ++ (kindsToks t.kindToIdx ++ [.newline, .punct '}', .newline])))) h1
  obtain ⟨r3, h3, e3⟩ := read_productions t.productions r2 _
    (actionTableToks t.action ++ (gotoTableToks t.goto ++ (kindsToks t.kindToIdx ++ [.newline, .punct '}', .newline]))) h2
  obtain ⟨r4, h4, e4⟩ := read_actionTable t.action r3 _ (gotoTableToks t.goto ++ (kindsToks t.kindToIdx ++ [.newline, .punct '}', .newline])) h3
  obtain ⟨r5, h5, e5⟩ := read_gotoTable t.goto r4 _ (kindsToks t.kindToIdx ++ [.newline, .punct '}', .newline]) h4
  rw [e1, e2, e3, e4, e5]
  simp only [kindsToks, List.cons_append, List.nil_append, List.append_assoc]
  rw [h5.word]
  generalize hA : (([] ++ [("Symbol".toList, symbolsTy t.symbols)] ++ [("Token".toList, tokenTy), ("Tokens".toList, .obj (ts.zipIdx.map tokenMem))] ++
    [("Production".toList, productionTy), ("Productions".toList, .obj (t.productions.zipIdx.map productionMem))] ++
    [("Action".toList, .obj (t.action.map actionRowMem))] ++ [("Goto".toList, .obj (t.goto.map gotoRowMem))]) : List (Str × TsTy)) = A
  have e6 := read_obj t.kindToIdx (fun e _ ms r rest h => read_kind e ms (.decl "TokenKindToIdx".toList :: inMod) A r rest h)
    [.newline, .newline, .punct '}', .newline]
  have e7 : typeDefsDecls t ts = A ++ [("TokenKindToIdx".toList, .obj (t.kindToIdx.map gotoMem))] := by
    rw [← hA]; simp [typeDefsDecls]
  rw [e7]
  refine Eq.trans (congrArg (fun o => Option.bind o readEnd) (Eq.trans (b := readToks ⟨.obj [] :: .decl "TokenKindToIdx".toList :: inMod, none, false, A⟩
    (t.kindToIdx.flatMap kindToks ++ .newline :: .punct '}' :: [.newline, .newline, .punct '}', .newline])) rfl e6)) ?_
  rfl

end Verif.Spec
