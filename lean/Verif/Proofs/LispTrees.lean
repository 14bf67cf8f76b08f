import Verif.Proofs.LispScan

/-! # The parse trees of basic_lisp.tlalr -/

namespace Verif.Props
open Verif Spec MiniTs

/-- The terminal for a word. -/
def wordSym : Lisp.Word → Sym
  | .lpar => .strLit "(".toList
  | .rpar => .strLit ")".toList
  | .add => .strLit "add".toList
  | .int _ => .regex "[1-9]+[0-9]*".toList

mutual
/-- The nodes of a tree. -/
def nodesE : Lisp.Expr → Nat
  | .add => 1
  | .int _ => 1
  | .list es => nodesEs es + 2
/-- The nodes of a tree. -/
def nodesEs : Lisp.Exprs → Nat
  | .one e => nodesE e + 1
  | .cons e es => nodesE e + nodesEs es + 1
end

mutual
theorem countE : ∀ e : Lisp.Expr, e.words.length + nodesE e + 1 = 3 * e.atoms + 5 * e.lists
  | .add => rfl
  | .int _ => rfl
  | .list es => by
    have := countEs es
    simp only [Lisp.Expr.words, nodesE, Lisp.Expr.atoms, Lisp.Expr.lists, List.length_append, List.length_cons, List.length_nil]
    omega
theorem countEs : ∀ es : Lisp.Exprs, es.words.length + nodesEs es = 3 * es.atoms + 5 * es.lists
  | .one e => by
    have := countE e
    simp only [Lisp.Exprs.words, nodesEs, Lisp.Exprs.atoms, Lisp.Exprs.lists]
    omega
  | .cons e es => by
    have := countE e
    have := countEs es
    simp only [Lisp.Exprs.words, nodesEs, Lisp.Exprs.atoms, Lisp.Exprs.lists, List.length_append]
    omega
end

/-- What a symbol of the grammar stands for: words, a value and the number of nodes. -/
inductive Den : Sym → List Lisp.Word → Ty → Nat → Prop
  | word (x : Lisp.Word) : Den (wordSym x) [x] (.str x.text) 0
  | expr (e : Lisp.Expr) : Den (.nonTerm "Expr".toList) e.words e.ty (nodesE e)
  | exprs (es : Lisp.Exprs) : Den (.nonTerm "Exprs".toList) es.words (.tup es.tys) (nodesEs es)
  | list (es : Lisp.Exprs) : Den (.nonTerm "SExpr".toList) (Lisp.listWords es) (Lisp.listTy es) (nodesEs es + 1)

theorem wordSym_ne (x : Lisp.Word) (k : Str) : wordSym x ≠ .nonTerm k := by cases x <;> simp [wordSym]

theorem Den.expr_inv {ws : List Lisp.Word} {v : Ty} {n : Nat} (h : Den (.nonTerm "Expr".toList) ws v n) :
    ∃ e : Lisp.Expr, ws = e.words ∧ v = e.ty ∧ n = nodesE e := by
  generalize hs : Sym.nonTerm "Expr".toList = s at h
  cases h with
  | word x => exact absurd hs.symm (wordSym_ne x _)
  | expr e => exact ⟨e, rfl, rfl, rfl⟩
  | exprs => exact absurd hs (by decide)
  | list => exact absurd hs (by decide)

theorem Den.exprs_inv {ws : List Lisp.Word} {v : Ty} {n : Nat} (h : Den (.nonTerm "Exprs".toList) ws v n) :
    ∃ es : Lisp.Exprs, ws = es.words ∧ v = .tup es.tys ∧ n = nodesEs es := by
  generalize hs : Sym.nonTerm "Exprs".toList = s at h
  cases h with
  | word x => exact absurd hs.symm (wordSym_ne x _)
  | expr e => exact absurd hs (by decide)
  | exprs es => exact ⟨es, rfl, rfl, rfl⟩
  | list => exact absurd hs (by decide)

theorem Den.list_inv {ws : List Lisp.Word} {v : Ty} {n : Nat} (h : Den (.nonTerm "SExpr".toList) ws v n) :
    ∃ es : Lisp.Exprs, ws = Lisp.listWords es ∧ v = Lisp.listTy es ∧ n = nodesEs es + 1 := by
  generalize hs : Sym.nonTerm "SExpr".toList = s at h
  cases h with
  | word x => exact absurd hs.symm (wordSym_ne x _)
  | expr e => exact absurd hs (by decide)
  | exprs es => exact absurd hs (by decide)
  | list es => exact ⟨es, rfl, rfl, rfl⟩

theorem Den.word_inv {s : Sym} (hs : ∀ k, s ≠ .nonTerm k) {ws : List Lisp.Word} {v : Ty} {n : Nat} (h : Den s ws v n) :
    ∃ x : Lisp.Word, s = wordSym x ∧ ws = [x] ∧ v = .str x.text ∧ n = 0 := by
  cases h with
  | word x => exact ⟨x, rfl, rfl, rfl, rfl⟩
  | expr => exact absurd rfl (hs _)
  | exprs => exact absurd rfl (hs _)
  | list => exact absurd rfl (hs _)

/-- The same for a list of symbols. -/
inductive Dens : List Sym → List Lisp.Word → List Ty → Nat → Prop
  | nil : Dens [] [] [] 0
  | cons {s ss ws ws' v vs n n'} : Den s ws v n → Dens ss ws' vs n' → Dens (s :: ss) (ws ++ ws') (v :: vs) (n + n')

theorem Dens.cons_inv {s : Sym} {ss : List Sym} {ws : List Lisp.Word} {vs : List Ty} {n : Nat} (h : Dens (s :: ss) ws vs n) :
    ∃ ws1 ws2 v vs' n1 n2, ws = ws1 ++ ws2 ∧ vs = v :: vs' ∧ n = n1 + n2 ∧ Den s ws1 v n1 ∧ Dens ss ws2 vs' n2 := by
  cases h with
  | cons h1 h2 => exact ⟨_, _, _, _, _, _, rfl, rfl, rfl, h1, h2⟩

theorem Dens.nil_inv {ws : List Lisp.Word} {vs : List Ty} {n : Nat} (h : Dens [] ws vs n) : ws = [] ∧ vs = [] ∧ n = 0 := by
  cases h; exact ⟨rfl, rfl, rfl⟩

theorem Dens.one_inv {s : Sym} {ws : List Lisp.Word} {vs : List Ty} {n : Nat} (h : Dens [s] ws vs n) :
    ∃ v, vs = [v] ∧ Den s ws v n := by
  obtain ⟨ws1, ws2, v, vs', n1, n2, rfl, rfl, rfl, h1, h2⟩ := h.cons_inv
  obtain ⟨rfl, rfl, rfl⟩ := h2.nil_inv
  exact ⟨v, rfl, by simpa using h1⟩

theorem Dens.one {s : Sym} {ws : List Lisp.Word} {v : Ty} {n : Nat} (h : Den s ws v n) : Dens [s] ws [v] n := by
  simpa using Dens.cons h .nil

/-- Name and right-hand side of the productions. -/
theorem lisp_prods : (lower lispAst).prods.map (fun p => (p.name, p.inputs)) =
    [("SExpr'".toList, [.nonTerm "SExpr".toList]),
     ("SExpr".toList, [.strLit "(".toList, .nonTerm "Exprs".toList, .strLit ")".toList]),
     ("Exprs".toList, [.nonTerm "Expr".toList, .nonTerm "Exprs".toList]),
     ("Exprs".toList, [.nonTerm "Expr".toList]),
     ("Expr".toList, [.nonTerm "SExpr".toList]),
     ("Expr".toList, [.strLit "add".toList]),
     ("Expr".toList, [.regex "[1-9]+[0-9]*".toList])] := by decide +kernel

theorem lisp_prod {p : Nat} {name : Str} {rhs : List Sym}
    (h : ((lower lispAst).prods.map (fun p => (p.name, p.inputs)))[p]? = some (name, rhs)) :
    ∃ q, (lower lispAst).prods[p]? = some q ∧ q.name = name ∧ q.inputs = rhs := by
  rw [List.getElem?_map] at h
  obtain ⟨q, h1, h2⟩ := Option.map_eq_some_iff.mp h
  cases h2
  exact ⟨q, h1, rfl, rfl⟩

theorem eval_length {S : Ts.Sem Ty} {ps : List Ast.Prod} {f : Forest} {ws : List Str} {vs : List Ty} (h : Eval S ps f ws vs) :
    f.yield.length = ws.length := by
  induction h with
  | nil => rfl
  | leaf _ ih => simp [Forest.yield, ih]
  | node _ _ _ _ ih1 ih2 => simp [Forest.yield, ih1, ih2]

/-- The value of a node. -/
theorem node_den {p : Nat} {b : Ast.Body} (hb : bodyOf lispAst p = some b) {q : Production} (hq : (lower lispAst).prods[p]? = some q)
    {xs : List Lisp.Word} {kvs : List Ty} {n : Nat} (h : Dens q.inputs xs kvs n)
    {v : Ty} (hv : lispUser.code b.mapping (bindings b.inputs kvs) = some v) : Den (.nonTerm q.name) xs v (n + 1) := by
  have hq' : ((lower lispAst).prods.map (fun p => (p.name, p.inputs)))[p]? = some (q.name, q.inputs) := by
    rw [List.getElem?_map, hq]; rfl
  rw [lisp_prods] at hq'
  have hlt : p < 7 := (List.getElem?_eq_some_iff.mp hq').1
  match p, hlt with
  | 0, _ => cases hb
  | 1, _ =>
    simp only [List.getElem?_cons_zero, List.getElem?_cons_succ, Option.some.injEq, Prod.mk.injEq] at hq'
    obtain ⟨h1, h2⟩ := hq'
    rw [← h2] at h
    rw [← h1]
    obtain ⟨w1, _, v1, _, n1, _, rfl, rfl, rfl, d1, h⟩ := h.cons_inv
    obtain ⟨w2, w3, v2, _, n2, n3, rfl, rfl, rfl, d2, h⟩ := h.cons_inv
    obtain ⟨v3, rfl, d3⟩ := h.one_inv
    obtain ⟨x1, e1, rfl, rfl, rfl⟩ := d1.word_inv (by simp)
    obtain ⟨es, rfl, rfl, rfl⟩ := d2.exprs_inv
    obtain ⟨x3, e3, rfl, rfl, rfl⟩ := d3.word_inv (by simp)
    cases hb
    have hx1 : x1 = .lpar := by cases x1 <;> first | rfl | (exfalso; revert e1; decide) | (exfalso; simp [wordSym] at e1)
    have hx3 : x3 = .rpar := by cases x3 <;> first | rfl | (exfalso; revert e3; decide) | (exfalso; simp [wordSym] at e3)
    subst hx1 hx3
    simp only [bindings] at hv
    obtain rfl := Option.some.inj ((code_list ..).symm.trans hv)
    have := Den.list es
    simpa [Lisp.listWords, Lisp.listTy] using this
  | 2, _ =>
    simp only [List.getElem?_cons_zero, List.getElem?_cons_succ, Option.some.injEq, Prod.mk.injEq] at hq'
    obtain ⟨h1, h2⟩ := hq'
    rw [← h2] at h
    rw [← h1]
    obtain ⟨w1, _, v1, _, n1, _, rfl, rfl, rfl, d1, h⟩ := h.cons_inv
    obtain ⟨v2, rfl, d2⟩ := h.one_inv
    obtain ⟨e, rfl, rfl, rfl⟩ := d1.expr_inv
    obtain ⟨es, rfl, rfl, rfl⟩ := d2.exprs_inv
    cases hb
    simp only [bindings] at hv
    obtain rfl := Option.some.inj ((code_cons ..).symm.trans hv)
    exact Den.exprs (.cons e es)
  | 3, _ =>
    simp only [List.getElem?_cons_zero, List.getElem?_cons_succ, Option.some.injEq, Prod.mk.injEq] at hq'
    obtain ⟨h1, h2⟩ := hq'
    rw [← h2] at h
    rw [← h1]
    obtain ⟨v1, rfl, d1⟩ := h.one_inv
    obtain ⟨e, rfl, rfl, rfl⟩ := d1.expr_inv
    cases hb
    simp only [bindings] at hv
    obtain rfl := Option.some.inj ((code_one ..).symm.trans hv)
    exact Den.exprs (.one e)
  | 4, _ =>
    simp only [List.getElem?_cons_zero, List.getElem?_cons_succ, Option.some.injEq, Prod.mk.injEq] at hq'
    obtain ⟨h1, h2⟩ := hq'
    rw [← h2] at h
    rw [← h1]
    obtain ⟨v1, rfl, d1⟩ := h.one_inv
    obtain ⟨es, rfl, rfl, rfl⟩ := d1.list_inv
    cases hb
    simp only [bindings] at hv
    obtain rfl := Option.some.inj ((code_sexpr ..).symm.trans hv)
    exact Den.expr (.list es)
  | 5, _ =>
    simp only [List.getElem?_cons_zero, List.getElem?_cons_succ, Option.some.injEq, Prod.mk.injEq] at hq'
    obtain ⟨h1, h2⟩ := hq'
    rw [← h2] at h
    rw [← h1]
    obtain ⟨v1, rfl, d1⟩ := h.one_inv
    obtain ⟨x1, e1, rfl, rfl, rfl⟩ := d1.word_inv (by simp)
    cases hb
    have hx1 : x1 = .add := by cases x1 <;> first | rfl | (exfalso; revert e1; decide) | (exfalso; simp [wordSym] at e1)
    subst hx1
    simp only [bindings] at hv
    obtain rfl := Option.some.inj ((code_symbol ..).symm.trans hv)
    exact Den.expr .add
  | 6, _ =>
    simp only [List.getElem?_cons_zero, List.getElem?_cons_succ, Option.some.injEq, Prod.mk.injEq] at hq'
    obtain ⟨h1, h2⟩ := hq'
    rw [← h2] at h
    rw [← h1]
    obtain ⟨v1, rfl, d1⟩ := h.one_inv
    obtain ⟨x1, e1, rfl, rfl, rfl⟩ := d1.word_inv (by simp)
    cases hb
    cases x1 with
    | int n =>
      simp only [bindings] at hv
      obtain rfl := Option.some.inj ((code_int ..).symm.trans hv)
      exact Den.expr (.int n)
    | _ => simp [wordSym] at e1

/-- A tree with a value is an expression. -/
theorem tree_den : ∀ (f : Forest) (xs : List Lisp.Word) (vs : List Ty), f.Valid (lower lispAst).prods →
    f.yield = xs.map wordSym → Eval (semOf lispUser) lispAst f (xs.map (·.text)) vs →
    Dens (f.roots (lower lispAst).prods) xs vs f.post.length
  | .nil, xs, vs, _, hy, he => by
    cases xs with
    | nil => cases he; exact .nil
    | cons x xs => simp [Forest.yield] at hy
  | .leaf t rest, xs, vs, hv, hy, he => by
    cases xs with
    | nil => simp [Forest.yield] at hy
    | cons x xs =>
      simp only [Forest.yield, List.map_cons, List.cons.injEq] at hy
      obtain ⟨rfl, hy⟩ := hy
      cases he with
      | leaf he =>
        have ih := tree_den rest xs _ hv.2 hy he
        have := Dens.cons (.word x) ih
        simpa [Forest.roots, Forest.post, semOf] using this
  | .node p kids rest, xs, vs, hv, hy, he => by
    obtain ⟨⟨q, hq, hin⟩, hvk, hvr⟩ := hv
    generalize hws : xs.map (·.text) = ws at he
    cases he with
    | @node _ b _ _ ws1 ws2 kvs v vs hb h1 hc h2 =>
      simp only [Forest.yield] at hy
      have hl1 := eval_length h1
      have e1 : (xs.take kids.yield.length).map wordSym = kids.yield := by
        rw [List.map_take, ← hy, List.take_left]
      have e2 : (xs.drop kids.yield.length).map wordSym = rest.yield := by
        rw [List.map_drop, ← hy, List.drop_left]
      have f1 : (xs.take kids.yield.length).map (·.text) = ws1 := by
        rw [List.map_take, hws, hl1, List.take_left]
      have f2 : (xs.drop kids.yield.length).map (·.text) = ws2 := by
        rw [List.map_drop, hws, hl1, List.drop_left]
      have d1 := tree_den kids _ kvs hvk e1.symm (f1 ▸ h1)
      have d2 := tree_den rest _ vs hvr e2.symm (f2 ▸ h2)
      rw [← hin] at d1
      have := Dens.cons (node_den hb hq d1 hc) d2
      rw [List.take_append_drop] at this
      simpa [Forest.roots, Forest.post, semOf, hq, Nat.add_assoc, Nat.add_comm, Nat.add_left_comm] using this

mutual
/-- The tree of an expression, before other trees. -/
def treeE : Lisp.Expr → Forest → Forest
  | .add, rest => .node 5 (.leaf (wordSym .add) .nil) rest
  | .int n, rest => .node 6 (.leaf (wordSym (.int n)) .nil) rest
  | .list es, rest => .node 4 (.node 1 (.leaf (wordSym .lpar) (treeEs es (.leaf (wordSym .rpar) .nil))) .nil) rest
/-- The tree of expressions, before other trees. -/
def treeEs : Lisp.Exprs → Forest → Forest
  | .one e, rest => .node 3 (treeE e .nil) rest
  | .cons e es, rest => .node 2 (treeE e (treeEs es .nil)) rest
end

/-- The forest `f` is a tree with root `s`, words `xs`, value `v` and `n` nodes, before `rest`. -/
structure TreeOf (s : Sym) (xs : List Lisp.Word) (v : Ty) (n : Nat) (f rest : Forest) : Prop where
  valid : rest.Valid (lower lispAst).prods → f.Valid (lower lispAst).prods
  roots : f.roots (lower lispAst).prods = s :: rest.roots (lower lispAst).prods
  yield : f.yield = xs.map wordSym ++ rest.yield
  post : f.post.length = n + rest.post.length
  eval : ∀ {ws vs}, Eval (semOf lispUser) lispAst rest ws vs →
    Eval (semOf lispUser) lispAst f (xs.map (·.text) ++ ws) (v :: vs)

theorem treeOf_leaf (x : Lisp.Word) (rest : Forest) : TreeOf (wordSym x) [x] (.str x.text) 0 (.leaf (wordSym x) rest) rest := by
  refine ⟨fun h => ⟨?_, h⟩, rfl, rfl, by simp [Forest.post], fun h => .leaf h⟩
  cases x <;> trivial

/-- The children of a node. -/
structure KidsOf (ss : List Sym) (xs : List Lisp.Word) (vs : List Ty) (n : Nat) (f : Forest) : Prop where
  valid : f.Valid (lower lispAst).prods
  roots : f.roots (lower lispAst).prods = ss
  yield : f.yield = xs.map wordSym
  post : f.post.length = n
  eval : Eval (semOf lispUser) lispAst f (xs.map (·.text)) vs

theorem kidsOf_nil : KidsOf [] [] [] 0 .nil := ⟨trivial, rfl, rfl, rfl, .nil⟩

theorem kidsOf_cons {s : Sym} {ss : List Sym} {xs xs' : List Lisp.Word} {v : Ty} {vs : List Ty} {n n' : Nat} {f rest : Forest}
    (h : TreeOf s xs v n f rest) (hr : KidsOf ss xs' vs n' rest) : KidsOf (s :: ss) (xs ++ xs') (v :: vs) (n + n') f := by
  refine ⟨h.valid hr.valid, by rw [h.roots, hr.roots], by rw [h.yield, hr.yield, List.map_append], by rw [h.post, hr.post], ?_⟩
  rw [List.map_append]
  exact h.eval hr.eval

theorem treeOf_node {p : Nat} {name : Str} {rhs : List Sym}
    (hp : ((lower lispAst).prods.map (fun p => (p.name, p.inputs)))[p]? = some (name, rhs))
    {b : Ast.Body} (hb : bodyOf lispAst p = some b) {xs : List Lisp.Word} {vs : List Ty} {n : Nat} {kids : Forest}
    (h : KidsOf rhs xs vs n kids) (rest : Forest) {v : Ty} (hv : lispUser.code b.mapping (bindings b.inputs vs) = some v) :
    TreeOf (.nonTerm name) xs v (n + 1) (.node p kids rest) rest := by
  obtain ⟨q, hq, rfl, rfl⟩ := lisp_prod hp
  refine ⟨fun hr => ⟨⟨q, hq, h.roots.symm⟩, h.valid, hr⟩, by simp [Forest.roots, hq], by simp [Forest.yield, h.yield], ?_, ?_⟩
  · simp [Forest.post, h.post]; omega
  · intro ws vs' he
    exact .node hb h.eval hv he

mutual
theorem treeE_ok : ∀ (e : Lisp.Expr) (rest : Forest), TreeOf (.nonTerm "Expr".toList) e.words e.ty (nodesE e) (treeE e rest) rest
  | .add, rest =>
    treeOf_node (p := 5) (by rw [lisp_prods]; rfl) (b := _) rfl (kidsOf_cons (treeOf_leaf .add .nil) kidsOf_nil) rest (code_symbol _)
  | .int n, rest =>
    treeOf_node (p := 6) (by rw [lisp_prods]; rfl) (b := _) rfl (kidsOf_cons (treeOf_leaf (.int n) .nil) kidsOf_nil) rest (code_int _)
  | .list es, rest => by
    have h1 : KidsOf [.strLit "(".toList, .nonTerm "Exprs".toList, .strLit ")".toList] _ _ _ _ :=
      kidsOf_cons (treeOf_leaf .lpar _) (kidsOf_cons (treeEs_ok es _) (kidsOf_cons (treeOf_leaf .rpar .nil) kidsOf_nil))
    have h2 := treeOf_node (p := 1) (by rw [lisp_prods]; rfl) (b := _) rfl h1 .nil (code_list _)
    have h3 := treeOf_node (p := 4) (by rw [lisp_prods]; rfl) (b := _) rfl (kidsOf_cons h2 kidsOf_nil) rest (code_sexpr _)
    simpa [Lisp.Expr.words, Lisp.Expr.ty, nodesE, treeE] using h3
theorem treeEs_ok : ∀ (es : Lisp.Exprs) (rest : Forest),
    TreeOf (.nonTerm "Exprs".toList) es.words (.tup es.tys) (nodesEs es) (treeEs es rest) rest
  | .one e, rest => by
    have h := treeOf_node (p := 3) (by rw [lisp_prods]; rfl) (b := _) rfl (kidsOf_cons (treeE_ok e .nil) kidsOf_nil) rest (code_one _)
    simpa [Lisp.Exprs.words, Lisp.Exprs.tys, nodesEs, treeEs] using h
  | .cons e es, rest => by
    have h := treeOf_node (p := 2) (by rw [lisp_prods]; rfl) (b := _) rfl
      (kidsOf_cons (treeE_ok e _) (kidsOf_cons (treeEs_ok es .nil) kidsOf_nil)) rest (code_cons _ _)
    simpa [Lisp.Exprs.words, Lisp.Exprs.tys, nodesEs, treeEs] using h
end

/-- The trees with a value are the lists. -/
theorem lisp_trees {xs : List Lisp.Word} {v : Ty} {n : Nat} :
    (∃ f, IsTree (lower lispAst).prods "SExpr".toList f (xs.map wordSym) ∧ f.post.length = n ∧
      Eval (semOf lispUser) lispAst f (xs.map (·.text)) [v]) ↔
    ∃ es : Lisp.Exprs, xs = Lisp.listWords es ∧ v = Lisp.listTy es ∧ n = nodesEs es + 1 := by
  constructor
  · rintro ⟨f, ⟨h1, h2, h3⟩, rfl, h4⟩
    have h := tree_den f xs [v] h1 h3 h4
    rw [h2] at h
    obtain ⟨v', hv, h⟩ := h.one_inv
    cases hv
    exact h.list_inv
  · rintro ⟨es, rfl, rfl, rfl⟩
    have h1 : KidsOf [.strLit "(".toList, .nonTerm "Exprs".toList, .strLit ")".toList] _ _ _ _ :=
      kidsOf_cons (treeOf_leaf .lpar _) (kidsOf_cons (treeEs_ok es _) (kidsOf_cons (treeOf_leaf .rpar .nil) kidsOf_nil))
    have h2 := kidsOf_cons (treeOf_node (p := 1) (by rw [lisp_prods]; rfl) (b := _) rfl h1 .nil (code_list _)) kidsOf_nil
    refine ⟨_, ⟨h2.valid, h2.roots, ?_⟩, ?_, ?_⟩
    · rw [h2.yield]; simp [Lisp.listWords]
    · rw [h2.post]; omega
    · have := h2.eval
      simpa [Lisp.listWords, Lisp.listTy] using this

end Verif.Props
