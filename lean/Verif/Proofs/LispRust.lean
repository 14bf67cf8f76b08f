import Verif.Proofs.LispTrees

/-! # basic_lisp.tlalr: the cut of a text by the lexer of the generator, and the shape of parse trees -/

namespace Verif.Props
open Verif Spec

/-! ## Trees -/

/-- What a symbol of the grammar stands for: words, and its tree before other trees. -/
inductive Sh : Sym → List Lisp.Word → (Forest → Forest) → Prop
  | word (x : Lisp.Word) : Sh (wordSym x) [x] (.leaf (wordSym x))
  | expr (e : Lisp.Expr) : Sh (.nonTerm "Expr".toList) e.words (treeE e)
  | exprs (es : Lisp.Exprs) : Sh (.nonTerm "Exprs".toList) es.words (treeEs es)
  | list (es : Lisp.Exprs) : Sh (.nonTerm "SExpr".toList) (Lisp.listWords es)
      (.node 1 (.leaf (wordSym .lpar) (treeEs es (.leaf (wordSym .rpar) .nil))))
  | top {ws t} : Sh (.nonTerm "SExpr'".toList) ws t

theorem Sh.expr_inv {ws : List Lisp.Word} {t : Forest → Forest} (h : Sh (.nonTerm "Expr".toList) ws t) :
    ∃ e : Lisp.Expr, ws = e.words ∧ t = treeE e := by
  generalize hs : Sym.nonTerm "Expr".toList = s at h
  cases h with
  | word x => exact absurd hs.symm (wordSym_ne x _)
  | expr e => exact ⟨e, rfl, rfl⟩
  | exprs => exact absurd hs (by decide)
  | list => exact absurd hs (by decide)
  | top => exact absurd hs (by decide)

theorem Sh.exprs_inv {ws : List Lisp.Word} {t : Forest → Forest} (h : Sh (.nonTerm "Exprs".toList) ws t) :
    ∃ es : Lisp.Exprs, ws = es.words ∧ t = treeEs es := by
  generalize hs : Sym.nonTerm "Exprs".toList = s at h
  cases h with
  | word x => exact absurd hs.symm (wordSym_ne x _)
  | expr e => exact absurd hs (by decide)
  | exprs es => exact ⟨es, rfl, rfl⟩
  | list => exact absurd hs (by decide)
  | top => exact absurd hs (by decide)

theorem Sh.list_inv {ws : List Lisp.Word} {t : Forest → Forest} (h : Sh (.nonTerm "SExpr".toList) ws t) :
    ∃ es : Lisp.Exprs, ws = Lisp.listWords es ∧ t = .node 1 (.leaf (wordSym .lpar) (treeEs es (.leaf (wordSym .rpar) .nil))) := by
  generalize hs : Sym.nonTerm "SExpr".toList = s at h
  cases h with
  | word x => exact absurd hs.symm (wordSym_ne x _)
  | expr e => exact absurd hs (by decide)
  | exprs es => exact absurd hs (by decide)
  | list es => exact ⟨es, rfl, rfl⟩
  | top => exact absurd hs (by decide)

theorem Sh.word_inv {s : Sym} (hs : ∀ k, s ≠ .nonTerm k) {ws : List Lisp.Word} {t : Forest → Forest} (h : Sh s ws t) :
    ∃ x : Lisp.Word, s = wordSym x ∧ ws = [x] ∧ t = .leaf (wordSym x) := by
  cases h with
  | word x => exact ⟨x, rfl, rfl, rfl⟩
  | expr => exact absurd rfl (hs _)
  | exprs => exact absurd rfl (hs _)
  | list => exact absurd rfl (hs _)
  | top => exact absurd rfl (hs _)

/-- The same for a list of symbols. -/
inductive Shs : List Sym → List Lisp.Word → Forest → Prop
  | nil : Shs [] [] .nil
  | cons {s ss ws ws' t f} : Sh s ws t → Shs ss ws' f → Shs (s :: ss) (ws ++ ws') (t f)

theorem Shs.cons_inv {s : Sym} {ss : List Sym} {ws : List Lisp.Word} {f : Forest} (h : Shs (s :: ss) ws f) :
    ∃ ws1 ws2 t f', ws = ws1 ++ ws2 ∧ f = t f' ∧ Sh s ws1 t ∧ Shs ss ws2 f' := by
  cases h with
  | cons h1 h2 => exact ⟨_, _, _, _, rfl, rfl, h1, h2⟩

theorem Shs.one_inv {s : Sym} {ws : List Lisp.Word} {f : Forest} (h : Shs [s] ws f) : ∃ t, f = t .nil ∧ Sh s ws t := by
  obtain ⟨ws1, ws2, t, f', rfl, rfl, h1, h2⟩ := h.cons_inv
  cases h2
  exact ⟨t, rfl, by simpa using h1⟩

/-- The shape of a node. -/
theorem node_sh {p : Nat} {q : Production} (hq : (lower lispAst).prods[p]? = some q)
    {xs : List Lisp.Word} {f : Forest} (h : Shs q.inputs xs f) : Sh (.nonTerm q.name) xs (.node p f) := by
  have hq' : ((lower lispAst).prods.map (fun p => (p.name, p.inputs)))[p]? = some (q.name, q.inputs) := by
    rw [List.getElem?_map, hq]; rfl
  rw [lisp_prods] at hq'
  have hlt : p < 7 := (List.getElem?_eq_some_iff.mp hq').1
  match p, hlt with
  | 0, _ =>
    simp only [List.getElem?_cons_zero, Option.some.injEq, Prod.mk.injEq] at hq'
    rw [← hq'.1]
    exact .top
  | 1, _ =>
    simp only [List.getElem?_cons_zero, List.getElem?_cons_succ, Option.some.injEq, Prod.mk.injEq] at hq'
    obtain ⟨h1, h2⟩ := hq'
    rw [← h2] at h
    rw [← h1]
    obtain ⟨w1, _, t1, _, rfl, rfl, d1, h⟩ := h.cons_inv
    obtain ⟨w2, w3, t2, _, rfl, rfl, d2, h⟩ := h.cons_inv
    obtain ⟨t3, rfl, d3⟩ := h.one_inv
    obtain ⟨x1, e1, rfl, rfl⟩ := d1.word_inv (by simp)
    obtain ⟨es, rfl, rfl⟩ := d2.exprs_inv
    obtain ⟨x3, e3, rfl, rfl⟩ := d3.word_inv (by simp)
    have hx1 : x1 = .lpar := by cases x1 <;> first | rfl | (exfalso; revert e1; decide) | (exfalso; simp [wordSym] at e1)
    have hx3 : x3 = .rpar := by cases x3 <;> first | rfl | (exfalso; revert e3; decide) | (exfalso; simp [wordSym] at e3)
    subst hx1 hx3
    simpa [Lisp.listWords] using Sh.list es
  | 2, _ =>
    simp only [List.getElem?_cons_zero, List.getElem?_cons_succ, Option.some.injEq, Prod.mk.injEq] at hq'
    obtain ⟨h1, h2⟩ := hq'
    rw [← h2] at h
    rw [← h1]
    obtain ⟨w1, _, t1, _, rfl, rfl, d1, h⟩ := h.cons_inv
    obtain ⟨t2, rfl, d2⟩ := h.one_inv
    obtain ⟨e, rfl, rfl⟩ := d1.expr_inv
    obtain ⟨es, rfl, rfl⟩ := d2.exprs_inv
    exact Sh.exprs (.cons e es)
  | 3, _ =>
    simp only [List.getElem?_cons_zero, List.getElem?_cons_succ, Option.some.injEq, Prod.mk.injEq] at hq'
    obtain ⟨h1, h2⟩ := hq'
    rw [← h2] at h
    rw [← h1]
    obtain ⟨t1, rfl, d1⟩ := h.one_inv
    obtain ⟨e, rfl, rfl⟩ := d1.expr_inv
    exact Sh.exprs (.one e)
  | 4, _ =>
    simp only [List.getElem?_cons_zero, List.getElem?_cons_succ, Option.some.injEq, Prod.mk.injEq] at hq'
    obtain ⟨h1, h2⟩ := hq'
    rw [← h2] at h
    rw [← h1]
    obtain ⟨t1, rfl, d1⟩ := h.one_inv
    obtain ⟨es, rfl, rfl⟩ := d1.list_inv
    exact Sh.expr (.list es)
  | 5, _ =>
    simp only [List.getElem?_cons_zero, List.getElem?_cons_succ, Option.some.injEq, Prod.mk.injEq] at hq'
    obtain ⟨h1, h2⟩ := hq'
    rw [← h2] at h
    rw [← h1]
    obtain ⟨t1, rfl, d1⟩ := h.one_inv
    obtain ⟨x1, e1, rfl, rfl⟩ := d1.word_inv (by simp)
    have hx1 : x1 = .add := by cases x1 <;> first | rfl | (exfalso; revert e1; decide) | (exfalso; simp [wordSym] at e1)
    subst hx1
    exact Sh.expr .add
  | 6, _ =>
    simp only [List.getElem?_cons_zero, List.getElem?_cons_succ, Option.some.injEq, Prod.mk.injEq] at hq'
    obtain ⟨h1, h2⟩ := hq'
    rw [← h2] at h
    rw [← h1]
    obtain ⟨t1, rfl, d1⟩ := h.one_inv
    obtain ⟨x1, e1, rfl, rfl⟩ := d1.word_inv (by simp)
    cases x1 with
    | int n => exact Sh.expr (.int n)
    | _ => simp [wordSym] at e1

/-- The shape of a forest over words. -/
theorem tree_sh : ∀ (f : Forest) (xs : List Lisp.Word), f.Valid (lower lispAst).prods → f.yield = xs.map wordSym →
    Shs (f.roots (lower lispAst).prods) xs f
  | .nil, xs, _, hy => by
    cases xs with
    | nil => exact .nil
    | cons x xs => simp [Forest.yield] at hy
  | .leaf t rest, xs, hv, hy => by
    cases xs with
    | nil => simp [Forest.yield] at hy
    | cons x xs =>
      simp only [Forest.yield, List.map_cons, List.cons.injEq] at hy
      obtain ⟨rfl, hy⟩ := hy
      exact Shs.cons (.word x) (tree_sh rest xs hv.2 hy)
  | .node p kids rest, xs, hv, hy => by
    obtain ⟨⟨q, hq, hin⟩, hvk, hvr⟩ := hv
    simp only [Forest.yield] at hy
    have e1 : (xs.take kids.yield.length).map wordSym = kids.yield := by
      rw [List.map_take, ← hy, List.take_left]
    have e2 : (xs.drop kids.yield.length).map wordSym = rest.yield := by
      rw [List.map_drop, ← hy, List.drop_left]
    have d1 := tree_sh kids _ hvk e1.symm
    have d2 := tree_sh rest _ hvr e2.symm
    rw [← hin] at d1
    have := Shs.cons (node_sh hq d1) d2
    rw [List.take_append_drop] at this
    simpa only [Forest.roots, hq, Option.map_some, Option.getD_some] using this

mutual
theorem treeE_post : ∀ (e : Lisp.Expr) (rest : Forest), (treeE e rest).post = e.rules ++ rest.post
  | .add, rest => rfl
  | .int n, rest => rfl
  | .list es, rest => by
    simp only [treeE, Forest.post, treeEs_post es, Lisp.Expr.rules]
    simp
theorem treeEs_post : ∀ (es : Lisp.Exprs) (rest : Forest), (treeEs es rest).post = es.rules ++ rest.post
  | .one e, rest => by
    simp only [treeEs, Forest.post, treeE_post e, Lisp.Exprs.rules]
    simp
  | .cons e es, rest => by
    simp only [treeEs, Forest.post, treeE_post e, treeEs_post es, Lisp.Exprs.rules]
    simp
end

/-- The parse trees are those of lists. -/
theorem lisp_shape {xs : List Lisp.Word} {f : Forest} (h : IsTree (lower lispAst).prods "SExpr".toList f (xs.map wordSym)) :
    ∃ es : Lisp.Exprs, xs = Lisp.listWords es ∧ f.post = Lisp.listRules es := by
  obtain ⟨h1, h2, h3⟩ := h
  have h := tree_sh f xs h1 h3
  rw [h2] at h
  obtain ⟨t, rfl, d⟩ := h.one_inv
  obtain ⟨es, rfl, rfl⟩ := d.list_inv
  refine ⟨es, rfl, ?_⟩
  simp only [Forest.post, treeEs_post, Lisp.listRules]
  simp

/-- Every list has a parse tree. -/
theorem lisp_tree (es : Lisp.Exprs) : ∃ f, IsTree (lower lispAst).prods "SExpr".toList f ((Lisp.listWords es).map wordSym) ∧
    f.post = Lisp.listRules es := by
  have h1 : KidsOf [.strLit "(".toList, .nonTerm "Exprs".toList, .strLit ")".toList] _ _ _ _ :=
    kidsOf_cons (treeOf_leaf .lpar _) (kidsOf_cons (treeEs_ok es _) (kidsOf_cons (treeOf_leaf .rpar .nil) kidsOf_nil))
  have h2 := kidsOf_cons (treeOf_node (p := 1) (by rw [lisp_prods]; rfl) (b := _) rfl h1 .nil (code_list _)) kidsOf_nil
  refine ⟨_, ⟨h2.valid, h2.roots, ?_⟩, ?_⟩
  · rw [h2.yield]; simp [Lisp.listWords]
  · simp only [Forest.post, treeEs_post, Lisp.listRules]
    simp

/-! ## Cutting a text -/

theorem stuck_iff {t : Str} : Lisp.Stuck t ↔ NoMatch lispDefs t ∧ ∀ c, t.head? = some c → ¬ (Blank c ∧ ¬ Viable lispDefs [c]) := by
  unfold Lisp.Stuck
  rw [noMatch_iff, and_comm]
  refine and_congr_right fun _ => forall_congr' fun c => imp_congr_right fun _ => ?_
  constructor
  · rintro ⟨h1, h2⟩ ⟨h | h, _⟩
    · exact h1 h
    · exact h2 h
  · intro h
    exact ⟨fun e => h ⟨.inl e, blank_not_viable (.inl e)⟩, fun e => h ⟨.inr e, blank_not_viable (.inr e)⟩⟩

theorem stuck_nil : Lisp.Stuck [] := by
  refine ⟨by simp, fun w r h => text_ne_nil w ?_⟩
  exact (List.append_eq_nil_iff.mp h.symm).1

theorem lexes_spaced {k : Nat} {input : Str} {out : List (Nat × Nat × Str)} {dr : Str} (h : Lexes lispDefs k input out dr) :
    ∃ ws body, input = body ++ dr ∧ Lisp.Stuck dr ∧ Lisp.Spaced ws body ∧ Pieced out ws := by
  induction h with
  | done => exact ⟨[], [], rfl, stuck_nil, .nil, rfl⟩
  | blank hb _ _ ih =>
    obtain ⟨ws, body, rfl, h2, h3, h4⟩ := ih
    exact ⟨ws, _ :: body, rfl, h2, .blank hb h3, h4⟩
  | @tok k input w i rest out dr hl hf hi _ _ ih =>
    obtain ⟨x, rfl⟩ := matches_word.mp hl.2.2.1
    obtain rfl := first_iff.mp hf
    obtain ⟨ws, body, rfl, h2, h3, h4⟩ := ih
    subst hi
    refine ⟨x :: ws, x.text ++ body, by simp, h2, .word (fun n hn c hc => ?_) h3, ?_⟩
    · refine longest_iff.mp hl n hn c ?_
      cases body with
      | nil => cases hc
      | cons a b => exact hc
    · unfold Pieced at h4 ⊢
      rw [List.map_cons, List.map_cons, h4]
  | @tokEnd k input w i rest hl hf hi hv =>
    obtain ⟨x, rfl⟩ := matches_word.mp hl.2.2.1
    obtain rfl := first_iff.mp hf
    subst hi
    rcases viable_iff.mp hv with ⟨y, hy⟩ | ht
    · have hr : rest = [] := by
        rcases text_prefix hy.symm with ⟨h, _⟩ | ⟨⟨n, rfl⟩, c, hc, hd⟩
        · exact h
        · exact absurd hd (longest_iff.mp hl n rfl c hc)
      subst hr
      exact ⟨[x], x.text ++ [], by simp, stuck_nil, .word (by simp) .nil, rfl⟩
    · exact absurd rfl (tail_noMatch ht)
  | @stop k c rest hno hb =>
    refine ⟨[], [], rfl, stuck_iff.mpr ⟨hno, fun c' hc => ?_⟩, .nil, rfl⟩
    cases hc
    exact hb

theorem spaced_lexes {ws : List Lisp.Word} {body dr : Str} (h : Lisp.Spaced ws body) (hs : Lisp.Stuck dr)
    (hlast : ∀ n, ws.getLast? ≠ some (.int n)) (k : Nat) : ∃ out, Lexes lispDefs k (body ++ dr) out dr ∧ Pieced out ws := by
  induction h generalizing k with
  | nil =>
    cases dr with
    | nil => exact ⟨[], .done, rfl⟩
    | cons c rest =>
      obtain ⟨h1, h2⟩ := stuck_iff.mp hs
      exact ⟨[], .stop h1 (h2 c rfl), rfl⟩
  | blank hb _ ih =>
    obtain ⟨out, h1, h2⟩ := ih hlast (k + 1)
    exact ⟨out, .blank hb (blank_not_viable hb) h1, h2⟩
  | @word x ws t hd ht ih =>
    have hl : LongestMatch lispDefs (x.text ++ (t ++ dr)) x.text := by
      rw [longest_iff]
      rintro n rfl c hc
      cases t with
      | nil =>
        obtain rfl := spaced_nil ht
        exact absurd rfl (hlast n)
      | cons a t => exact hd n rfl c hc
    have hlast' : ∀ n, ws.getLast? ≠ some (.int n) := by
      intro n h
      cases ws with
      | nil => cases h
      | cons y ws => exact hlast n (by rw [List.getLast?_cons_cons]; exact h)
    rw [List.append_assoc]
    by_cases hv : Viable lispDefs (x.text ++ (t ++ dr))
    · have hr : t ++ dr = [] := by
        rcases viable_iff.mp hv with ⟨y, hy⟩ | ht'
        · rcases text_prefix hy.symm with ⟨h, _⟩ | ⟨⟨n, rfl⟩, c, hc, hd⟩
          · exact h
          · exact absurd hd (longest_iff.mp hl n rfl c hc)
        · exact absurd rfl (tail_noMatch ht')
      obtain ⟨rfl, rfl⟩ := List.append_eq_nil_iff.mp hr
      refine ⟨[(k, wordIdx x, x.text)], .tokEnd hl (first_iff.mpr rfl) rfl hv, ?_⟩
      rw [spaced_nil ht]
      rfl
    · obtain ⟨out, h1, h2⟩ := ih hlast' (k + x.text.length)
      refine ⟨_, .tok hl (first_iff.mpr rfl) rfl hv h1, ?_⟩
      unfold Pieced at h2 ⊢
      rw [List.map_cons, List.map_cons, h2]

theorem digit_ascii {c : Char} (h : Lisp.Digit c) : c.toNat < 128 := by
  have h9 : '9'.toNat = 57 := by decide
  have := h.2
  omega

theorem text_ascii (x : Lisp.Word) : ∀ c ∈ x.text, c.toNat < 128 := by
  cases x with
  | int n =>
    obtain ⟨a, ds, h1, h2, h3⟩ := int_number n
    rw [h1]
    intro c hc
    have h9 : '9'.toNat = 57 := by decide
    rcases List.mem_cons.mp hc with rfl | hc
    · omega
    · exact digit_ascii (h3 c hc)
  | _ => decide

theorem spaced_ascii {ws : List Lisp.Word} {t : Str} (h : Lisp.Spaced ws t) : ∀ c ∈ t, c.toNat < 128 := by
  induction h with
  | nil => simp
  | blank hb _ ih =>
    intro c hc
    rcases List.mem_cons.mp hc with rfl | hc
    · rcases hb with rfl | rfl <;> decide
    · exact ih c hc
  | word _ _ ih =>
    intro c hc
    rcases List.mem_append.mp hc with hc | hc
    · exact text_ascii _ c hc
    · exact ih c hc

end Verif.Props
