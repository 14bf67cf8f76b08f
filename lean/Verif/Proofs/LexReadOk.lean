import Verif.Proofs.LexTextOk

/-! # Reading the lexer tables -/

namespace Verif.Spec
open Verif LexGen

def defDecl (e : Nat × Str × Bool) : Str × TsTy :=
  (defName e.1, .obj [(.name "kind".toList, .str e.2.1), (.name "hasValue".toList, .name (boolText e.2.2))])

theorem read_tokenDef (e : Nat × Str × Bool) (ds : List (Str × TsTy)) (r : Reader) (rest : List TsTok) (h : Ready [] ds r) :
    ∃ r', Ready [] (ds ++ [defDecl e]) r' ∧ readToks r (tokenDefToks e ++ rest) = readToks r' rest := by
  obtain ⟨i, k, v⟩ := e
  refine ⟨⟨[.decl (defName i)], some (.obj [(.name "kind".toList, .str k), (.name "hasValue".toList, .name (boolText v))]), true, ds⟩,
    .pending rfl, ?_⟩
  simp only [tokenDefToks, List.cons_append, List.nil_append]
  rw [h.word]
  cases v <;> rfl

def tokenMember (e : Nat × Str × Bool) : TsKey × TsTy := (.num e.1, .name (defName e.1))

theorem read_tokensMember {fs : List Inside} {ds : List (Str × TsTy)} (e : Nat × Str × Bool) (ms : List (TsKey × TsTy))
    (r : Reader) (rest : List TsTok) (h : InObj ms fs ds r) :
    ∃ r', InObj (ms ++ [tokenMember e]) fs ds r' ∧ readToks r (tokensMemberToks e ++ rest) = readToks r' rest := by
  refine ⟨⟨.obj (ms ++ [tokenMember e]) :: fs, none, false, ds⟩, .here _, ?_⟩
  simp only [tokensMemberToks, List.cons_append, List.nil_append]
  rw [h.ready.num]
  rfl

def labelTy (l : Nat × Nat) : TsTy := .obj [(.name "from".toList, .num l.1), (.name "to".toList, .num l.2)]

def stateDecl (p : State × Nat) : Str × TsTy :=
  (stateName p.2, .obj [(.name "to".toList, .tuple (p.1.to.map .num)), (.name "labels".toList, .tuple (p.1.labels.map labelTy)),
    (.name "accepting".toList, .name (boolText p.1.accepting))])

theorem read_state (p : State × Nat) (ds : List (Str × TsTy)) (r : Reader) (rest : List TsTok) (h : Ready [] ds r) :
    ∃ r', Ready [] (ds ++ [stateDecl p]) r' ∧ readToks r (stateToks p ++ rest) = readToks r' rest := by
  obtain ⟨⟨tos, ls, a⟩, i⟩ := p
  refine ⟨⟨[.decl (stateName i)], some (stateDecl (⟨tos, ls, a⟩, i)).2, true, ds⟩, .pending rfl, ?_⟩
  simp only [stateToks, List.cons_append, List.nil_append, List.append_assoc]
  rw [h.word]
  refine Eq.trans (read_nums (fs := [.member (.name "to".toList), .obj [], .decl (stateName i)]) (ds := ds) tos [] false _) ?_
  refine Eq.trans (read_tuple (fs := [.member (.name "labels".toList), .obj [(.name "to".toList, .tuple (tos.map .num))],
    .decl (stateName i)]) (ds := ds) (ty := labelTy) ls ?_ [] false _) ?_
  · intro l _ ts b rest
    rfl
  · cases a <;> rfl

def dfaMember (e : Nat × List Nat) : TsKey × TsTy := (.num e.1, .tuple (e.2.map .num))

theorem read_dfaMember {fs : List Inside} {ds : List (Str × TsTy)} (e : Nat × List Nat) (ms : List (TsKey × TsTy))
    (r : Reader) (rest : List TsTok) (h : InObj ms fs ds r) :
    ∃ r', InObj (ms ++ [dfaMember e]) fs ds r' ∧ readToks r (dfaMemberToks e ++ rest) = readToks r' rest := by
  refine ⟨⟨.obj (ms ++ [dfaMember e]) :: fs, none, true, ds⟩, .here _, ?_⟩
  simp only [dfaMemberToks, List.cons_append, List.nil_append, List.append_assoc]
  rw [h.ready.num]
  exact Eq.trans (read_nums (fs := .member (.num e.1) :: .obj ms :: fs) (ds := ds) e.2 [] false _) rfl

def lexDecls (t : Tables) : List (Str × TsTy) :=
  t.tokens.map defDecl ++ [("Tokens".toList, .obj (t.tokens.map tokenMember))] ++ t.states.zipIdx.map stateDecl ++
    [("States".toList, .tuple ((List.range t.states.length).map fun i => .name (stateName i)))] ++
    [("DFAtoNFA".toList, .obj (t.dfaToNfa.map dfaMember))]

theorem read_lexToks (t : Tables) : (readToks ⟨[], none, false, []⟩ (lexToks t)).bind readEnd = some (lexDecls t) := by
  have e0 : readToks ⟨[], none, false, []⟩ (lexToks t) = readToks ⟨[], none, true, []⟩ ((lexToks t).drop 2) := rfl
  rw [e0]
  simp only [lexToks, List.cons_append, List.nil_append, List.drop_succ_cons, List.drop_zero]
  obtain ⟨r1, h1, e1⟩ := read_decls (fs := []) t.tokens (fun e _ ds r rest h => read_tokenDef e ds r rest h) [] ⟨[], none, true, []⟩ _ (.here _)
  rw [e1, h1.word]
  rw [List.nil_append] at h1 ⊢
  -- Tokens
  have e2 : ∀ rest, ((readWord (t.tokens.map defDecl) [] "export".toList).bind fun r =>
      readToks r (.word "type".toList :: .word "Tokens".toList :: .punct '=' :: .punct '{' :: .newline :: rest)) =
      readToks ⟨[.obj [], .decl "Tokens".toList], none, true, t.tokens.map defDecl⟩ rest := fun _ => rfl
  rw [e2]
  obtain ⟨r3, h3, e3⟩ := read_members (fs := [.decl "Tokens".toList]) (ds := t.tokens.map defDecl) t.tokens
    (fun e _ ms r rest h => read_tokensMember e ms r rest h) [] ⟨[.obj [], .decl "Tokens".toList], none, true, t.tokens.map defDecl⟩ _ (.here _)
  rw [e3]
  obtain ⟨r4, h4, e4⟩ := h3.newline (.punct '}' :: .newline :: .newline :: (t.states.zipIdx.flatMap stateToks ++
    (.word "export".toList :: .word "type".toList :: .word "States".toList :: .punct '=' :: .punct '[' ::
    (commas ((List.range t.states.length).map fun i => [.word (stateName i)]) ++
    (.punct ']' :: .punct ';' :: .newline :: .newline ::
    (.word "export".toList :: .word "type".toList :: .word "DFAtoNFA".toList :: .punct '=' :: .punct '{' :: .newline ::
    (t.dfaToNfa.flatMap dfaMemberToks ++ [.punct '}'])))))))
  rw [e4, h4.close, List.nil_append]
  -- states
  have h5 : Ready [] (t.tokens.map defDecl ++ [("Tokens".toList, .obj (t.tokens.map tokenMember))])
      ⟨[.decl "Tokens".toList], some (.obj (t.tokens.map tokenMember)), true, t.tokens.map defDecl⟩ := .pending rfl
  have e5 : ∀ rest, readToks ⟨[.decl "Tokens".toList], some (.obj (t.tokens.map tokenMember)), false, t.tokens.map defDecl⟩
      (.newline :: .newline :: rest) =
      readToks ⟨[.decl "Tokens".toList], some (.obj (t.tokens.map tokenMember)), true, t.tokens.map defDecl⟩ rest := fun _ => rfl
  rw [e5]
  obtain ⟨r6, h6, e6⟩ := read_decls (fs := []) t.states.zipIdx (fun e _ ds r rest h => read_state e ds r rest h) _ _
    (.word "export".toList :: .word "type".toList :: .word "States".toList :: .punct '=' :: .punct '[' ::
    (commas ((List.range t.states.length).map fun i => [.word (stateName i)]) ++
    (.punct ']' :: .punct ';' :: .newline :: .newline ::
    (.word "export".toList :: .word "type".toList :: .word "DFAtoNFA".toList :: .punct '=' :: .punct '{' :: .newline ::
    (t.dfaToNfa.flatMap dfaMemberToks ++ [.punct '}']))))) h5
  rw [e6, h6.word]
  clear e6 h6 e5 h5 e4 h4 e3 h3 e2 e1 h1 e0
  generalize hA : (t.tokens.map defDecl ++ [("Tokens".toList, TsTy.obj (t.tokens.map tokenMember))] ++ t.states.zipIdx.map stateDecl) = A
  have e7 : ∀ rest, ((readWord A [] "export".toList).bind fun r =>
      readToks r (.word "type".toList :: .word "States".toList :: .punct '=' :: .punct '[' :: rest)) =
      readToks ⟨[.tuple [], .decl "States".toList], none, false, A⟩ rest := fun _ => rfl
  rw [e7]
  have e8 := read_tuple (toks := fun i => [.word (stateName i)]) (ty := fun i => .name (stateName i)) (fs := [.decl "States".toList]) (ds := A)
    (List.range t.states.length) (fun _ _ _ _ _ => rfl) [] false
  rw [e8, List.nil_append]
  generalize hB : (A ++ [("States".toList, TsTy.tuple ((List.range t.states.length).map fun i => .name (stateName i)))]) = B
  have e9 : ∀ rest, readToks ⟨[.decl "States".toList], some (.tuple ((List.range t.states.length).map fun i => .name (stateName i))), false, A⟩
      (.punct ';' :: .newline :: .newline :: .word "export".toList :: .word "type".toList :: .word "DFAtoNFA".toList :: .punct '=' ::
        .punct '{' :: .newline :: rest) = readToks ⟨[.obj [], .decl "DFAtoNFA".toList], none, true, B⟩ rest := by
    intro rest; rw [← hB]; rfl
  rw [e9]
  obtain ⟨r10, h10, e10⟩ := read_members (fs := [.decl "DFAtoNFA".toList]) (ds := B) t.dfaToNfa
    (fun e _ ms r rest h => read_dfaMember e ms r rest h) [] ⟨[.obj [], .decl "DFAtoNFA".toList], none, true, B⟩ [.punct '}'] (.here _)
  rw [e10, h10.close, List.nil_append]
  simp only [lexDecls, hA, hB]
  rfl

end Verif.Spec
