import Verif.Proofs.ReportOk
import Verif.Props.ParseExact

/-! # The tokens reported as valid (C68) -/

namespace Verif.Props
open Verif Spec

section
variable {H : Type} [DecidableEq H] {hash : List Item → H} {ps : List Ast.Prod} {start : Ast.Prod}
  {g : Grammar} {depth : Nat} {action : Table Nat Action} {got : Table Str Nat} {states : List ItemSet}

/-- C68.  The tokens listed are those with an entry in the row of the state on top of the stack, each once,
in ascending order; the token reported is none of them. -/
theorem C68_keys (hB : Built hash ps start g depth action got states) (st : Lalr.PState) :
    ((Lalr.reported action st).getD []).Pairwise (· < ·) ∧
    (∀ k, k ∈ (Lalr.reported action st).getD [] ↔ ∃ s tl a, st.stack = s :: tl ∧ action.tryIndex s k = some a) ∧
    ∀ toks, Lalr.step g action got toks st = .error .invalidToken → st.a ∉ (Lalr.reported action st).getD [] := by
  have hmem : ∀ k, k ∈ (Lalr.reported action st).getD [] ↔
      ∃ s tl a, st.stack = s :: tl ∧ action.tryIndex s k = some a := by
    intro k
    unfold Lalr.reported
    cases st.stack with
    | nil => simp
    | cons s tl =>
      simp only [Table.mem_valid, List.cons.injEq]
      constructor
      · rintro ⟨a, h⟩; exact ⟨s, tl, a, ⟨rfl, rfl⟩, h⟩
      · rintro ⟨_, _, a, ⟨rfl, rfl⟩, h⟩; exact ⟨a, h⟩
  refine ⟨?_, hmem, ?_⟩
  · have hR := (Lalr.makeTables_rows hB.tables).1
    unfold Lalr.reported Table.valid
    cases st.stack with
    | nil => simp
    | cons s tl =>
      simp only
      cases hg : mget s action with
      | none => simp
      | some row =>
        have := (hR.2 _ (mget_mem hg)).1
        simpa [MSorted, Sorted, blt] using this
  · intro toks he hin
    obtain ⟨s, tl, a, h1, h2⟩ := (hmem _).mp hin
    unfold Lalr.step at he
    simp only [h1, h2] at he
    cases a with
    | shift j => cases he
    | accept => cases he
    | reduce p =>
      simp only at he
      split at he <;> try cases he
      split at he <;> try cases he
      split at he <;> try cases he
      split at he <;> cases he

/-- C68.  A listed token the parser would shift goes on towards a sentence, and if it would accept then the tokens
shifted are a sentence. -/
theorem C68_shift (hB : Built hash ps start g depth action got states)
    (hP : Productive (AstRule ps) start.name) {toks : List Nat} {m : Nat} (hm : toks[m]? = some 0)
    {st0 st : Lalr.PState} (hs : Lalr.startState toks = .ok st0) {n : Nat} (hr : Runs g action got toks n st0 st)
    {ws : List Sym} (hn : Numbers g (toks.take st.i) ws) {s : Nat} {tl : List Nat} (htop : st.stack = s :: tl) (k : Nat) :
    (∀ j, action.tryIndex s k = some (.shift j) →
      ∃ x v, g.tokens[k]? = some x ∧ Sentence (AstRule ps) start.name (ws ++ x :: v)) ∧
    (action.tryIndex s k = some .accept → k = 0 ∧ Sentence (AstRule ps) start.name ws) := by
  have hok := hB.ok
  obtain ⟨look, hT⟩ := hB.sound
  obtain ⟨f, w, hI⟩ := hr.inv hok hT (Lalr.Inv.start (look := look) (g := g) (lalr := states) hs)
  obtain ⟨hle, hw⟩ := hI.le hok hm
  have hws : ws = f.yield := hn.inj (by rw [← hw]; exact hI.yield)
  subst hws
  have hne := Grammar.start_ne hok hB.ast hB.first
  have hS := Grammar.start_prod hB.ast hB.first
  have hlen := hI.len
  have hI' : Lalr.Inv g states look (w ++ [k, 0]) { st with a := k } f w := by
    refine ⟨hI.path, hI.valid, hI.post, hI.yield, hlen, ?_, ?_⟩
    · intro i hi
      simp only at hi
      have : min i ((w ++ [k, 0]).length - 1) = i := by simp; omega
      rw [this, List.getElem?_append_left (by omega)]
    · simp only
      have : min st.i ((w ++ [k, 0]).length - 1) = w.length := by simp; omega
      rw [this]; simp
  constructor
  · intro j hj
    have hstep : Lalr.step g action got (w ++ [k, 0]) { st with a := k } =
        .ok (some ⟨j :: st.stack, st.i + 1, ((w ++ [k, 0])[st.i + 1]?).getD k, st.out⟩) := by
      simp only [Lalr.step, htop, hj, Lalr.nextToken]
    rcases Lalr.step_spec hok hT hI' with ⟨st2, f2, w2, h1, h2, h3⟩ | ⟨h1, _⟩ | h1 | ⟨h1, _⟩
    · have e : st2.i = st.i + 1 := by rw [hstep] at h1; cases h1; rfl
      cases h3 with
      | @shift _ x hx _ =>
        have hpr : ∀ A, (∃ p ∈ g.prods, Sym.nonTerm A ∈ p.inputs) →
            ∃ v, (∀ t ∈ v, IsTerm t) ∧ Steps (Rule g.prods) [.nonTerm A] v := by
          rintro A ⟨p, hp, hA⟩
          rcases hB.productive hP hp hA with h | ⟨A', v, h, h'⟩
          · simp [IsTerm] at h
          · cases h; exact ⟨v, h'⟩
        obtain ⟨v, hv⟩ := h2.viable hok hT hS hpr
        rw [Grammar.sentence_iff hok hB.ast hB.first hne] at hv
        exact ⟨x, v, hx, by simpa [Forest.yield_append, Forest.yield] using hv⟩
      | reduce => simp at e
    · rw [hstep] at h1; cases h1
    · rw [hstep] at h1; cases h1
    · rw [hstep] at h1; cases h1
  · intro hj
    have hstep : Lalr.step g action got (w ++ [k, 0]) { st with a := k } = .ok none := by
      simp only [Lalr.step, htop, hj]
    rcases Lalr.step_spec hok hT hI' with ⟨st2, f2, w2, h1, h2, h3⟩ | ⟨_, hk, S, h2, h3⟩ | h1 | ⟨h1, _⟩
    · rw [hstep] at h1; cases h1
    · refine ⟨hk, ?_⟩
      rw [hS] at h2
      simp only [Option.some.injEq, Production.mk.injEq, List.cons.injEq, Sym.nonTerm.injEq, and_true, true_and] at h2
      subst h2
      rw [← Grammar.sentence_iff hok hB.ast hB.first hne]
      exact ⟨Forest.yield_term f hI.valid, by rw [← h3]; exact Forest.steps f hI.valid⟩
    · rw [hstep] at h1; cases h1
    · rw [hstep] at h1; cases h1

/-- C68, right after the last shift: the list then contains every token with which the tokens shifted go on to a parse
tree all of whose transitions are kept, and the end marker if they have such a tree; what follows up to the report are
reductions, which the reported token has caused.
Missing: the list after these reductions (`C68_false`). -/
theorem C68_after_shift_partial (hB : Built hash ps start g depth action got states) (hc : NoCollisions hash g depth)
    {toks : List Nat} {m : Nat} (hm : toks[m]? = some 0)
    {st0 st : Lalr.PState} (hs : Lalr.startState toks = .ok st0) {n : Nat} (hr : Runs g action got toks n st0 st) :
    ∃ n1 n2 st1, n = n1 + n2 ∧ Runs g action got toks n1 st0 st1 ∧ Runs g action got toks n2 st1 st ∧ st1.i = st.i ∧
      ∀ ws, Numbers g (toks.take st.i) ws →
        (∀ f, IsTree g.prods start.name f ws → KeptTree g f → 0 ∈ (Lalr.reported action st1).getD []) ∧
        ∀ k x v f, g.tokens[k]? = some x → IsTree g.prods start.name f (ws ++ x :: v) → KeptTree g f →
          k ∈ (Lalr.reported action st1).getD [] := by
  have hok := hB.ok
  obtain ⟨look, hT⟩ := hB.sound
  obtain ⟨F, w, hI⟩ := hr.inv hok hT (Lalr.Inv.start (look := look) (g := g) (lalr := states) hs)
  have hle := (hI.le hok hm).1
  have hlen : st.i < toks.length := by
    have := (List.getElem?_eq_some_iff.mp hm).1; omega
  obtain ⟨m1, st1, h1, h2, h3, h4, h5⟩ := Lalr.last_shift hr
  have key : ∀ (b : Nat) (toks' : List Nat) (fuel : Nat) (out : List Nat), (∀ k < st.i, toks'[k]? = toks[k]?) →
      toks'[st.i]? = some b → Lalr.parseIdx g action got fuel toks' = .ok out →
      b ∈ (Lalr.reported action st1).getD [] := by
    intro b toks' fuel out hag hb hp
    rw [← h4] at hag hb
    obtain ⟨a', ha', hr'⟩ := Lalr.runs_other hs h5 hag hb
    unfold Lalr.parseIdx at hp
    cases hrun : Lalr.run g action got toks' fuel a' with
    | error e => simp [ha', hrun, bind, Except.bind] at hp
    | ok r =>
      obtain ⟨s, tl, v, e1, e2⟩ := Lalr.run_entry hr' hrun
      exact ((C68_keys hB st1).2.1 b).mpr ⟨s, tl, v, e1, e2⟩
  refine ⟨m1, n - m1, st1, by omega, h2, h3, h4, fun ws hn => ⟨?_, ?_⟩⟩
  · intro f hf hk
    refine key 0 (toks.take st.i ++ 0 :: []) _ f.post ?_ ?_
      ((C66_tree hB hc hf hn []).2 hk _ (Nat.lt_succ_self _))
    · intro k hk
      rw [List.getElem?_append_left (by simp; omega), List.getElem?_take_of_lt hk]
    · rw [List.getElem?_append_right (by rw [List.length_take]; omega)]
      simp [Nat.min_eq_left (Nat.le_of_lt hlen)]
  · intro k x v f hx hf hk
    obtain ⟨u0, hu0⟩ := hB.number hf
    obtain ⟨u1, u2, _, _, hu2⟩ := List.map_eq_append_iff.mp (hu0.trans (List.map_append ..))
    obtain ⟨k', u, rfl, _, hu⟩ := List.map_eq_cons_iff.mp hu2
    have hn' : Numbers g (toks.take st.i ++ k :: u) (ws ++ x :: v) := by
      unfold Numbers at hn ⊢
      simp [hn, hx, hu]
    refine key k (toks.take st.i ++ k :: u ++ 0 :: []) _ f.post ?_ ?_
      ((C66_tree hB hc hf hn' []).2 hk _ (Nat.lt_succ_self _))
    · intro k hk
      rw [List.append_assoc, List.getElem?_append_left (by simp; omega), List.getElem?_take_of_lt hk]
    · rw [List.append_assoc, List.getElem?_append_right (by rw [List.length_take]; omega)]
      simp [Nat.min_eq_left (Nat.le_of_lt hlen)]

end

/-! ## Witnesses -/

/-- Trees for the nonterminals on the right-hand sides show that the grammar is productive. -/
theorem productive_of {H : Type} [DecidableEq H] {hash : List Item → H} {ps : List Ast.Prod} {start : Ast.Prod}
    {g : Grammar} {depth : Nat} {action : Table Nat Action} {got : Table Str Nat} {states : List ItemSet}
    (hB : Built hash ps start g depth action got states) (trees : List (Str × Forest))
    (h1 : (trees.all fun e => validB g.prods e.2 && decide (e.2.roots g.prods = [.nonTerm e.1])) = true)
    (h2 : (g.prods.all fun p => p.inputs.all fun x => match x with
      | .nonTerm A => trees.any fun e => decide (e.1 = A)
      | _ => true) = true) : Productive (AstRule ps) start.name := by
  have hok := hB.ok
  have key : ∀ p ∈ g.prods, ∀ A, Sym.nonTerm A ∈ p.inputs → ∃ w, Sentence (AstRule ps) A w := by
    intro p hp A hA
    have hAa : A ≠ g.augName := by rintro rfl; exact hok.fresh p hp hA
    have := List.all_eq_true.mp (List.all_eq_true.mp h2 p hp) _ hA
    obtain ⟨⟨A', f⟩, he, hd⟩ := List.any_eq_true.mp this
    have hd : A' = A := of_decide_eq_true hd
    subst hd
    have := List.all_eq_true.mp h1 _ he
    simp only [Bool.and_eq_true, decide_eq_true_eq] at this
    have hv := validB_sound _ _ this.1
    refine ⟨f.yield, ?_⟩
    rw [← Grammar.sentence_iff hok hB.ast hB.first hAa]
    exact ⟨Forest.yield_term f hv, by rw [← this.2]; exact Forest.steps f hv⟩
  have hS := List.mem_of_getElem? (Grammar.start_prod hB.ast hB.first)
  refine ⟨key _ hS _ (by simp), fun A rhs B hR hm => ?_⟩
  obtain ⟨p, hp, _, rfl⟩ := (Grammar.rule_iff hB.ast hB.first).mpr (.inr hR)
  exact key p hp B hm

/-- `S → "p" P | "q" Q`, `P → M "c"`, `Q → M "d"`, `M → A "x" | B`, `B → A`, `A → "a"`. -/
def listAst : List Ast.Prod :=
  [mkProd true "S" [["p", "P"], ["q", "Q"]], mkProd false "P" [["M", "c"]], mkProd false "Q" [["M", "d"]],
    mkProd false "M" [["A", "x"], ["B"]], mkProd false "B" [["A"]], mkProd false "A" [["a"]]]

theorem list_expressible : Expressible listAst := expressibleB_sound (by decide +kernel)

theorem list_fromAst : Grammar.fromAst listAst = .ok (lower listAst) := ok_of_isSome (by decide +kernel)

theorem list_built : Built id listAst (startOf listAst) (lower listAst) (Lalr.depthOf (lower listAst))
    (tablesOf (lower listAst)).1 (tablesOf (lower listAst)).2.1 (tablesOf (lower listAst)).2.2 :=
  built_of list_expressible (by decide +kernel) list_fromAst (ok_of_isSome (by decide +kernel))

theorem list_transitions : AllTransitions (lower listAst) (tablesOf (lower listAst)).2.2 (tablesOf (lower listAst)).1
    (tablesOf (lower listAst)).2.1 :=
  transitions_of list_built (noCollisions_id _ _)
    (sets := (ItemSet.items (lower listAst) (Lalr.depthOf (lower listAst))).toOption.getD [])
    (ok_of_isSome (by decide +kernel)) (by decide +kernel)

/-- Trees of `A`, `B`, `M`. -/
def listA : Forest := .node 8 (.leaf (.strLit ['a']) .nil) .nil
def listB : Forest := .node 7 listA .nil
def listM : Forest := .node 6 listB .nil

theorem list_productive : Productive (AstRule listAst) (startOf listAst).name :=
  productive_of list_built
    [("A".toList, listA), ("B".toList, listB), ("M".toList, listM),
      ("P".toList, .node 3 (.node 6 listB (.leaf (.strLit ['c']) .nil)) .nil),
      ("Q".toList, .node 4 (.node 6 listB (.leaf (.strLit ['d']) .nil)) .nil),
      ("S".toList, .node 1 (.leaf (.strLit ['p']) (.node 3 (.node 6 listB (.leaf (.strLit ['c']) .nil)) .nil)) .nil)]
    (by decide +kernel) (by decide +kernel)

/-- The configuration after some iterations. -/
def after (g : Grammar) (action : Table Nat Action) (got : Table Str Nat) (toks : List Nat) :
    Nat → Lalr.PState → Option Lalr.PState
  | 0, st => some st
  | n + 1, st => match Lalr.step g action got toks st with
    | .ok (some st') => after g action got toks n st'
    | _ => none

theorem runs_of {g : Grammar} {action : Table Nat Action} {got : Table Str Nat} {toks : List Nat} :
    ∀ {n : Nat} {st st' : Lalr.PState}, after g action got toks n st = some st' → Runs g action got toks n st st'
  | 0, st, st', h => by cases h; exact .refl
  | n + 1, st, st', h => by
    unfold after at h
    split at h
    · rename_i st1 hs; exact .head hs (runs_of h)
    · cases h

theorem step_error_of {g : Grammar} {action : Table Nat Action} {got : Table Str Nat} {toks : List Nat} {st : Lalr.PState}
    (h : (match Lalr.step g action got toks st with | .error e => decide (e = .invalidToken) | _ => false) = true) :
    Lalr.step g action got toks st = .error .invalidToken := by
  split at h
  · rename_i e he; rw [he, of_decide_eq_true h]
  · cases h

/-- C68 is false: with every transition kept and every nonterminal productive, the list can lack a token that
goes on towards a sentence (`x` after `p a`, when `d` follows), and can contain one that does not (`d` after `p a`,
when `p` follows). -/
theorem C68_false : ∃ (ps : List Ast.Prod) (start : Ast.Prod) (g : Grammar) (action : Table Nat Action) (got : Table Str Nat)
    (states : List ItemSet), Built id ps start g (Lalr.depthOf g) action got states ∧ AllTransitions g states action got ∧
    Productive (AstRule ps) start.name ∧
    (∃ toks st0 n st ws k x v, Lalr.startState toks = .ok st0 ∧ Runs g action got toks n st0 st ∧
      Lalr.step g action got toks st = .error .invalidToken ∧ Numbers g (toks.take st.i) ws ∧ g.tokens[k]? = some x ∧
      Sentence (AstRule ps) start.name (ws ++ x :: v) ∧ k ∉ (Lalr.reported action st).getD []) ∧
    ∃ toks st0 n st ws k x, Lalr.startState toks = .ok st0 ∧ Runs g action got toks n st0 st ∧
      Lalr.step g action got toks st = .error .invalidToken ∧ Numbers g (toks.take st.i) ws ∧ g.tokens[k]? = some x ∧
      k ∈ (Lalr.reported action st).getD [] ∧ ∀ v, ¬ Sentence (AstRule ps) start.name (ws ++ x :: v) := by
  have hr1 : Runs (lower listAst) (tablesOf (lower listAst)).1 (tablesOf (lower listAst)).2.1 [4, 1, 3, 0] 5
      ⟨[0], 0, 4, []⟩ ⟨[5, 3, 0], 2, 3, [8, 7, 6]⟩ := runs_of (by decide +kernel)
  have he1 : Lalr.step (lower listAst) (tablesOf (lower listAst)).1 (tablesOf (lower listAst)).2.1 [4, 1, 3, 0]
      ⟨[5, 3, 0], 2, 3, [8, 7, 6]⟩ = .error .invalidToken := step_error_of (by decide +kernel)
  refine ⟨listAst, startOf listAst, lower listAst, _, _, _, list_built, list_transitions, list_productive,
    ⟨[4, 1, 3, 0], _, 5, _, lits ["p", "a"], 6, .strLit ['x'], lits ["c"], rfl, hr1, he1,
      by unfold Numbers; decide +kernel, by decide +kernel, ?_, by decide +kernel⟩,
    [4, 1, 4, 0], ⟨[0], 0, 4, []⟩, 2, ⟨[8, 3, 0], 2, 4, []⟩, lits ["p", "a"], 3, .strLit ['d'], rfl,
      runs_of (by decide +kernel), step_error_of (by decide +kernel),
      by unfold Numbers; decide +kernel, by decide +kernel, by decide +kernel, ?_⟩
  · exact sentence_of list_expressible list_fromAst (startOf_eq (by decide +kernel))
      (f := .node 1 (.leaf (.strLit ['p']) (.node 3 (.node 5 (.node 8 (.leaf (.strLit ['a']) .nil)
        (.leaf (.strLit ['x']) .nil)) (.leaf (.strLit ['c']) .nil)) .nil)) .nil) (tree_of (by decide +kernel))
  · obtain ⟨st0, n, st, ws, h1, h2, h3, _, h5, _, _, h8⟩ :=
      C53_first_error_partial list_built (noCollisions_id _ _) list_transitions list_productive (toks := [4, 1, 3, 0])
        (m := 3) rfl (fuel := 7) (error_of (by decide +kernel))
    cases h1
    have := Lalr.runs_error_unique hr1 he1 h2 h3
    subst this
    have hws : ws = lits ["p", "a"] := h5.inj (by unfold Numbers; decide +kernel)
    subst hws
    exact h8 3 (.strLit ['d']) rfl (by decide +kernel)

-- C68_keys: the error on `p a d`, where just `c` is listed.
example : (Lalr.reported (tablesOf (lower listAst)).1 ⟨[5, 3, 0], 2, 3, [8, 7, 6]⟩).getD [] = [2] := by decide +kernel

-- C68_shift: the hypotheses, with a token to shift.
example : Built id listAst (startOf listAst) (lower listAst) (Lalr.depthOf (lower listAst))
      (tablesOf (lower listAst)).1 (tablesOf (lower listAst)).2.1 (tablesOf (lower listAst)).2.2 ∧
    Productive (AstRule listAst) (startOf listAst).name ∧
    Runs (lower listAst) (tablesOf (lower listAst)).1 (tablesOf (lower listAst)).2.1 [4, 1, 3, 0] 5
      ⟨[0], 0, 4, []⟩ ⟨[5, 3, 0], 2, 3, [8, 7, 6]⟩ ∧
    Numbers (lower listAst) (([4, 1, 3, 0] : List Nat).take 2) (lits ["p", "a"]) ∧
    (tablesOf (lower listAst)).1.tryIndex 5 2 = some (.shift 13) :=
  ⟨list_built, list_productive, runs_of (by decide +kernel), by unfold Numbers; decide +kernel, by decide +kernel⟩

-- C68_after_shift_partial: after `p a` the list has `c`, `d` and `x`, and `p a x c` has a tree.
example : (Lalr.reported (tablesOf (lower listAst)).1 ⟨[8, 3, 0], 2, 3, []⟩).getD [] = [2, 3, 6] ∧
    ∃ f, IsTree (lower listAst).prods (startOf listAst).name f (lits ["p", "a"] ++ .strLit ['x'] :: lits ["c"]) ∧
      KeptTree (lower listAst) f := by
  refine ⟨by decide +kernel, .node 1 (.leaf (.strLit ['p']) (.node 3 (.node 5 (.node 8 (.leaf (.strLit ['a']) .nil)
    (.leaf (.strLit ['x']) .nil)) (.leaf (.strLit ['c']) .nil)) .nil)) .nil, ?_⟩
  have hf : IsTree (lower listAst).prods (startOf listAst).name (.node 1 (.leaf (.strLit ['p']) (.node 3 (.node 5
      (.node 8 (.leaf (.strLit ['a']) .nil) (.leaf (.strLit ['x']) .nil)) (.leaf (.strLit ['c']) .nil)) .nil)) .nil)
      (lits ["p", "a"] ++ .strLit ['x'] :: lits ["c"]) := tree_of (by decide +kernel)
  exact ⟨hf, C66_all list_built (noCollisions_id _ _) list_transitions hf⟩

end Verif.Props
