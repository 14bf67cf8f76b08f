import Verif.Proofs.ParseGenOk

/-! The type-level parser follows the parser loop. -/

namespace Verif.Ts
open Spec Grammar ParseGen

variable {V : Type} {S : Sem V} {T : ParseGen.Tables} {ps : List Ast.Prod}

/-! ## evaluation -/

theorem eval_append {f1 f2 : Forest} {ws1 ws2 : List Str} {vs1 vs2 : List V} (h1 : Eval S ps f1 ws1 vs1)
    (h2 : Eval S ps f2 ws2 vs2) : Eval S ps (f1.append f2) (ws1 ++ ws2) (vs1 ++ vs2) := by
  induction h1 with
  | nil => simpa [Forest.append] using h2
  | leaf _ ih => exact .leaf ih
  | node hb hk hc _ _ ih2 =>
    rw [List.append_assoc]
    exact .node hb hk hc ih2

theorem eval_split : ∀ {f1 f2 : Forest} {ws : List Str} {vs : List V}, Eval S ps (f1.append f2) ws vs →
    ∃ ws1 ws2 vs1 vs2, ws = ws1 ++ ws2 ∧ vs = vs1 ++ vs2 ∧ Eval S ps f1 ws1 vs1 ∧ Eval S ps f2 ws2 vs2
  | .nil, f2, ws, vs, h => ⟨[], ws, [], vs, rfl, rfl, .nil, h⟩
  | .leaf t r, f2, ws, vs, h => by
    cases h with
    | leaf h =>
      obtain ⟨a, b, c, d, rfl, rfl, h1, h2⟩ := eval_split h
      exact ⟨_, b, _, d, rfl, rfl, .leaf h1, h2⟩
  | .node p k r, f2, ws, vs, h => by
    cases h with
    | node hb hk hc h =>
      obtain ⟨a, b, c, d, rfl, rfl, h1, h2⟩ := eval_split h
      exact ⟨_, b, _, d, (List.append_assoc _ _ _).symm, rfl, .node hb hk hc h1, h2⟩

theorem eval_length {g : List Production} {f : Forest} {ws : List Str} {vs : List V} (h : Eval S ps f ws vs) :
    vs.length = (f.roots g).length ∧ ws.length = f.yield.length := by
  induction h with
  | nil => simp [Forest.roots, Forest.yield]
  | leaf _ ih => simp [Forest.roots, Forest.yield, ih]
  | node _ _ _ _ ih1 ih2 => simp [Forest.roots, Forest.yield, ih1, ih2]

/-- The value of a tree is determined by the texts of its leaves. -/
theorem eval_unique {f : Forest} {ws : List Str} {vs vs' : List V} (h : Eval S ps f ws vs)
    (h' : Eval S ps f ws vs') : vs = vs' := by
  induction h generalizing vs' with
  | nil => cases h'; rfl
  | leaf _ ih => cases h' with | leaf h => rw [ih h]
  | @node p b kids rest ws1 ws2 kvs v vs hb hk hc hr ih1 ih2 =>
    generalize e : ws1 ++ ws2 = ws at h'
    cases h' with
    | node hb' hk' hc' hr' =>
      rw [hb] at hb'; cases hb'
      have := (eval_length (g := []) hk).2.trans (eval_length (g := []) hk').2.symm
      obtain ⟨rfl, rfl⟩ := List.append_inj e this
      rw [← ih1 hk', hc] at hc'
      rw [ih2 hr', Option.some.inj hc']

/-! ## symbols -/

/-- The stack symbol `y` represents the symbol `s` with value `v`. -/
inductive Shows (S : Sem V) (T : ParseGen.Tables) : Sym → V → Symb V → Prop
  | term {t s w} : Stands t s w → Shows S T s (S.text w) (.token (some t))
  | nonTerm {k v} : k ∈ T.symbols → S.has k v = true → Shows S T (.nonTerm k) v (.nonTerm k v)

theorem Shows.isSymbol {s : Sym} {v : V} {y : Symb V} (h : Shows S T s v y) : isSymbol S T y = true := by
  cases h with
  | term _ => rfl
  | nonTerm h1 h2 => simp [Ts.isSymbol, h1, h2]

theorem Stands.occurs {t : Tok} {s : Sym} {w : Str} (h : Stands t s w) : Occurs S ps s (S.text w) := by
  obtain ⟨h1, _, _, h4⟩ := h
  cases s with
  | strLit l => rw [h4 l rfl]; exact .strLit
  | regex r => exact .regex
  | _ => exact False.elim h1

/-- The conditions of one parameter hold. -/
theorem paramChecks_ok {s : Ast.InSym} (hw : Written s) {v : V} {y : Symb V} (hy : Shows S T s.lower v y)
    {popped : List (Str × Symb V)} (hp : ∀ n ty, s = .named (some n) ty → mget n popped = some y)
    {env : List (Str × V)} (he : ∀ k, s.lower = .nonTerm k → mget k env = none) (act i : Nat) (cs : List Cond)
    (msgs : List Msg) :
    ∃ msgs', runConds S popped ((paramChecks act i (plain s)).1 ++ cs) msgs env =
      runConds S popped cs msgs' (env ++ bindings [s] [v]) := by
  cases s with
  | named n ty =>
    obtain ⟨h1, h2, h3⟩ := hw
    obtain ⟨h4, h5⟩ := h3 n ty rfl
    cases n with
    | none => exact absurd rfl h4
    | some n =>
      have hm := hp n ty rfl
      cases ty with
      | named m t => exact absurd rfl (h5 m t)
      | epsilon => exact absurd rfl h1
      | eof => exact absurd rfl h2
      | nonTerm k =>
        cases hy with
        | nonTerm h6 h7 =>
          refine ⟨msgs.dropLast, ?_⟩
          simp only [plain, paramChecks, Option.getD_some, List.cons_append, List.nil_append, runConds, checkCond, hm,
            inType, he k rfl, h7, and_self, if_true, bindings]
        | term h => exact False.elim h.1
      | strLit l =>
        cases hy with
        | @term t _ w h =>
          obtain ⟨_, h6, h7, h8⟩ := h
          obtain ⟨kind, value⟩ := t
          simp only at h6 h7
          subst h7
          have := h8 l rfl
          subst this
          refine ⟨msgs.dropLast.dropLast, ?_⟩
          simp only [plain, paramChecks, Option.getD_some, List.cons_append, List.nil_append, runConds, checkCond, hm,
            if_true, bindings, List.append_nil]
      | regex r =>
        cases hy with
        | @term t _ w h =>
          obtain ⟨_, h6, h7, h8⟩ := h
          obtain ⟨kind, value⟩ := t
          simp only at h6 h7
          subst h7
          refine ⟨msgs.dropLast.dropLast, ?_⟩
          simp only [plain, paramChecks, Option.getD_some, List.cons_append, List.nil_append, runConds, checkCond, hm,
            bindings, List.append_nil]
  | epsilon => exact absurd rfl hw.1
  | eof => exact absurd rfl hw.2.1
  | _ => exact ⟨msgs, by simp [plain, paramChecks, bindings]⟩

theorem bindings_cons (s : Ast.InSym) (v : V) (ss : List Ast.InSym) (vs : List V) :
    bindings (s :: ss) (v :: vs) = bindings [s] [v] ++ bindings ss vs := by
  cases s with
  | named n ty => cases n <;> simp [bindings]
  | _ => simp [bindings]

theorem bindings_one_fst (s : Ast.InSym) (v : V) : (bindings [s] [v]).map Prod.fst = names [s] := by
  cases s with
  | named n ty => cases n <;> simp [bindings, names]
  | _ => simp [bindings, names]

theorem names_cons (s : Ast.InSym) (ss : List Ast.InSym) : names (s :: ss) = names [s] ++ names ss := by
  simp only [names, List.filterMap_cons, List.filterMap_nil]
  split <;> simp

theorem bindings_fst : ∀ (ss : List Ast.InSym) (vs : List V), ss.length = vs.length →
    (bindings ss vs).map Prod.fst = names ss
  | [], [], _ => rfl
  | s :: ss, v :: vs, h => by
    rw [bindings_cons, names_cons, List.map_append, bindings_one_fst, bindings_fst ss vs (by simpa using h)]

theorem mget_append_none {k : Str} : ∀ {a b : List (Str × V)}, mget k a = none →
    k ∉ b.map Prod.fst → mget k (a ++ b) = none := by
  intro a b h1 h2
  rw [mget_eq_none_iff] at h1 ⊢
  simp_all

/-- All conditions hold and bind every parameter to the value of its child. -/
theorem checks_ok {popped : List (Str × Symb V)} (act : Nat) : ∀ {ss : List Ast.InSym} {prs : List (V × Symb V)},
    (∀ s ∈ ss, Written s) → List.Forall₂ (fun s pr => Shows S T s.lower pr.1 pr.2) ss prs →
    (∀ n y, (n, y) ∈ poppedNames (ss.map plain) (prs.map Prod.snd) → mget n popped = some y) →
    (∀ n ∈ names ss, ∀ k, Sym.nonTerm k ∈ ss.map Ast.InSym.lower → k ≠ n) → ∀ {env : List (Str × V)},
    (∀ k, Sym.nonTerm k ∈ ss.map Ast.InSym.lower → mget k env = none) → ∀ (i : Nat) (msgs : List Msg),
    runConds S popped (checks act i (ss.map plain)).1 msgs env = .ok (env ++ bindings ss (prs.map Prod.fst))
  | [], _, _, .nil, _, _, env, _, i, msgs => by simp [checks, runConds, bindings]
  | s :: ss, pr :: prs, hw, .cons h1 h2, hp, hn, env, he, i, msgs => by
    simp only [List.map_cons, checks]
    obtain ⟨msgs', h3⟩ := paramChecks_ok (hw s (by simp)) h1 (popped := popped) (env := env)
      (fun n ty e => hp n pr.2 (by subst e; simp [poppedNames, plain]))
      (fun k hk => he k (by simp [hk])) act (i + 1) (checks act (i + 1) (ss.map plain)).1 msgs
    refine h3.trans ((checks_ok act (fun x hx => hw x (List.mem_cons_of_mem s hx)) h2 ?_ ?_ ?_ (i + 1) msgs').trans ?_)
    rotate_left 3
    · rw [bindings_cons s pr.1 ss, List.append_assoc]
    · intro n y hm
      refine hp n y ?_
      simp only [poppedNames, List.map_cons, List.zip_cons_cons, List.filterMap_cons] at hm ⊢
      split
      · exact hm
      · exact List.mem_cons_of_mem _ hm
    · intro n hm k hk
      refine hn n ?_ k (by simp only [List.map_cons]; exact List.mem_cons_of_mem _ hk)
      rw [names_cons]; exact List.mem_append_right _ hm
    · intro k hk
      have hk' : Sym.nonTerm k ∈ (s :: ss).map Ast.InSym.lower := by
        simp only [List.map_cons]; exact List.mem_cons_of_mem _ hk
      refine mget_append_none (he k hk') ?_
      rw [bindings_one_fst]
      intro hm
      exact hn k (by rw [names_cons]; exact List.mem_append_left _ hm) k hk' rfl

/-- The conditions of one parameter hold or fail; if they hold they bind it to its child. -/
theorem paramChecks_or {s : Ast.InSym} (hw : Written s) {v : V} {y : Symb V} (hy : Shows S T s.lower v y)
    {popped : List (Str × Symb V)} (hp : ∀ n ty, s = .named (some n) ty → mget n popped = some y)
    {env : List (Str × V)} (act i : Nat) (cs : List Cond) (msgs : List Msg) :
    (∃ msgs', runConds S popped ((paramChecks act i (plain s)).1 ++ cs) msgs env =
      runConds S popped cs msgs' (env ++ bindings [s] [v])) ∨
    ∃ o, runConds S popped ((paramChecks act i (plain s)).1 ++ cs) msgs env = .error o := by
  by_cases hin : ∀ k, s.lower = .nonTerm k → mget k env = none
  · exact .inl (paramChecks_ok hw hy hp hin act i cs msgs)
  · simp only [not_forall] at hin
    obtain ⟨k, hk, _⟩ := hin
    cases s with
    | named n ty =>
      obtain ⟨h1, h2, h3⟩ := hw
      obtain ⟨h4, h5⟩ := h3 n ty rfl
      cases n with
      | none => exact absurd rfl h4
      | some n =>
        have hm := hp n ty rfl
        cases ty with
        | named m t => exact absurd rfl (h5 m t)
        | nonTerm k' =>
          cases hy with
          | nonTerm h6 h7 =>
            cases hi : inType S env k' v with
            | true =>
              refine .inl ⟨msgs.dropLast, ?_⟩
              simp only [plain, paramChecks, Option.getD_some, List.cons_append, List.nil_append, runConds, checkCond, hm,
                hi, and_self, if_true, bindings]
            | false =>
              refine .inr ⟨msgs.getLast?, ?_⟩
              simp [plain, paramChecks, runConds, checkCond, hm, hi]
          | term h => exact False.elim h.1
        | _ => cases hk
    | _ => exact .inl ⟨msgs, by simp [plain, paramChecks, bindings]⟩

/-- The conditions bind every parameter to the value of its child, or one of them fails. -/
theorem checks_or {popped : List (Str × Symb V)} (act : Nat) : ∀ {ss : List Ast.InSym} {prs : List (V × Symb V)},
    (∀ s ∈ ss, Written s) → List.Forall₂ (fun s pr => Shows S T s.lower pr.1 pr.2) ss prs →
    (∀ n y, (n, y) ∈ poppedNames (ss.map plain) (prs.map Prod.snd) → mget n popped = some y) →
    ∀ {env : List (Str × V)} (i : Nat) (msgs : List Msg),
    runConds S popped (checks act i (ss.map plain)).1 msgs env = .ok (env ++ bindings ss (prs.map Prod.fst)) ∨
    ∃ o, runConds S popped (checks act i (ss.map plain)).1 msgs env = .error o
  | [], _, _, .nil, _, env, i, msgs => by simp [checks, runConds, bindings]
  | s :: ss, pr :: prs, hw, .cons h1 h2, hp, env, i, msgs => by
    simp only [List.map_cons, checks]
    rcases paramChecks_or (hw s (by simp)) h1 (popped := popped) (env := env)
      (fun n ty e => hp n pr.2 (by subst e; simp [poppedNames, plain]))
      act (i + 1) (checks act (i + 1) (ss.map plain)).1 msgs with ⟨msgs', h3⟩ | ⟨o, h3⟩
    · have ih := checks_or (popped := popped) act (fun x hx => hw x (List.mem_cons_of_mem s hx)) h2 (by
        intro n y hm
        refine hp n y ?_
        simp only [poppedNames, List.map_cons, List.zip_cons_cons, List.filterMap_cons] at hm ⊢
        split
        · exact hm
        · exact List.mem_cons_of_mem _ hm) (env := env ++ bindings [s] [pr.1]) (i + 1) msgs'
      rw [List.append_assoc, ← bindings_cons s pr.1 ss] at ih
      rcases ih with ih | ⟨o, ih⟩
      · exact .inl (h3.trans ih)
      · exact .inr ⟨o, h3.trans ih⟩
    · exact .inr ⟨o, h3⟩

theorem poppedNames_fst : ∀ {ss : List Ast.InSym} {ys : List (Symb V)}, (∀ s ∈ ss, Written s) → ss.length = ys.length →
    (poppedNames (ss.map plain) ys).map Prod.fst = names ss
  | [], [], _, _ => rfl
  | s :: ss, y :: ys, hw, h => by
    have ih := poppedNames_fst (ss := ss) (ys := ys) (fun x hx => hw x (List.mem_cons_of_mem s hx)) (by simpa using h)
    rw [names_cons, ← ih]
    have h3 := (hw s (by simp)).2.2
    cases s with
    | named n ty =>
      cases n with
      | none => exact absurd rfl (h3 none ty rfl).1
      | some n => simp [poppedNames, plain, names]
    | _ => simp [poppedNames, plain, names]

theorem mget_of_nodup {κ ν : Type} [DecidableEq κ] {k : κ} {v : ν} {m : List (κ × ν)} (hm : (k, v) ∈ m)
    (hn : (m.map Prod.fst).Nodup) : mget k m = some v := by
  refine mget_unique hm fun v' h' => ?_
  have hp := List.pairwise_map.mp hn
  clear hn
  induction m with
  | nil => cases hm
  | cons a m ih =>
    rw [List.pairwise_cons] at hp
    rcases List.mem_cons.mp hm with rfl | h1 <;> rcases List.mem_cons.mp h' with h2 | h2
    · cases h2; rfl
    · exact absurd rfl (hp.1 (k, v') h2)
    · subst h2; exact absurd rfl (hp.1 (k, v) h1)
    · exact ih h1 h2 hp.2

/-- An action whose children are on top of the stack. -/
theorem runAct_ok {max : Nat} {b : Ast.Body} {name : Str} {k : Nat} {prs1 prs2 : List (V × Symb V)} {α : List Sym}
    (hw : ∀ s ∈ b.inputs, Written s) (hnd : (names b.inputs).Nodup) (hns : "newStack".toList ∉ names b.inputs)
    (hnt : ∀ n ∈ names b.inputs, ∀ k, Sym.nonTerm k ∈ b.inputs.map Ast.InSym.lower → k ≠ n)
    (hmax : b.inputs.length ≤ max)
    (h1 : List.Forall₂ (fun r (pr : V × Symb V) => Shows S T r pr.1 pr.2) α prs1)
    (h2 : List.Forall₂ (fun r (pr : V × Symb V) => Shows S T r pr.1 pr.2) (b.inputs.map Ast.InSym.lower) prs2)
    {v : V} (hv : S.code b.mapping (bindings b.inputs (prs2.map Prod.fst)) = some v) :
    runAct max S T (actOf k (name, b)) ((prs1 ++ prs2).map Prod.snd).reverse =
      .stack (.nonTerm name v :: (prs1.map Prod.snd).reverse) := by
  have h2' := List.forall₂_map_left_iff.mp h2
  have hlen : b.inputs.length = prs2.length := h2'.length_eq
  have hrev : ((prs1 ++ prs2).map Prod.snd).reverse = (prs2.map Prod.snd).reverse ++ (prs1.map Prod.snd).reverse := by
    simp
  have hl2 : (prs2.map Prod.snd).reverse.length = b.inputs.length := by simp [hlen]
  have hall : ((prs1.map Prod.snd).reverse).all (isSymbol S T) = true := by
    simp only [List.all_eq_true, List.mem_reverse, List.mem_map]
    rintro _ ⟨pr, hpr, rfl⟩
    clear hrev
    induction h1 with
    | nil => cases hpr
    | cons h _ ih =>
      rcases List.mem_cons.mp hpr with rfl | hpr
      · exact h.isSymbol
      · exact ih hpr
  unfold runAct
  simp only [actOf, List.length_map]
  rw [popWith_ok _ _ hmax, hrev, if_pos (by simp; omega)]
  simp only
  rw [← hl2, List.drop_left, List.take_left, List.reverse_reverse, if_pos (by simp), if_pos hall]
  have hc := checks_ok (T := T) (S := S) (popped := poppedNames (b.inputs.map plain) (prs2.map Prod.snd)) k hw h2'
    (fun n y hm => mget_of_nodup hm (by rw [poppedNames_fst hw (by simp [hlen])]; exact hnd)) hnt (env := [])
    (fun _ _ => rfl) 0 (validate (actOf k (name, b))).2
  simp only [List.nil_append] at hc
  simp only [validate, actOf] at hc ⊢
  rw [hc]
  simp only [hv]
  rw [mget_eq_none_iff.mpr (by rw [bindings_fst _ _ (by simp [hlen])]; exact hns)]

/-- The same when parameters may hide types: the action replaces its children by the same symbol,
or fails. -/
theorem runAct_or {max : Nat} {b : Ast.Body} {name : Str} {k : Nat} {prs1 prs2 : List (V × Symb V)}
    (hw : ∀ s ∈ b.inputs, Written s) (hnd : (names b.inputs).Nodup) (hns : "newStack".toList ∉ names b.inputs)
    (hmax : b.inputs.length ≤ max)
    (h2 : List.Forall₂ (fun r (pr : V × Symb V) => Shows S T r pr.1 pr.2) (b.inputs.map Ast.InSym.lower) prs2) :
    (∃ v, S.code b.mapping (bindings b.inputs (prs2.map Prod.fst)) = some v ∧
      runAct max S T (actOf k (name, b)) ((prs1 ++ prs2).map Prod.snd).reverse =
        .stack (.nonTerm name v :: (prs1.map Prod.snd).reverse)) ∨
    ∀ l, runAct max S T (actOf k (name, b)) ((prs1 ++ prs2).map Prod.snd).reverse ≠ .stack l := by
  have h2' := List.forall₂_map_left_iff.mp h2
  have hlen : b.inputs.length = prs2.length := h2'.length_eq
  have hrev : ((prs1 ++ prs2).map Prod.snd).reverse = (prs2.map Prod.snd).reverse ++ (prs1.map Prod.snd).reverse := by
    simp
  have hl2 : (prs2.map Prod.snd).reverse.length = b.inputs.length := by simp [hlen]
  unfold runAct
  simp only [actOf, List.length_map]
  rw [popWith_ok _ _ hmax, hrev, if_pos (by simp; omega)]
  simp only
  rw [← hl2, List.drop_left, List.take_left, List.reverse_reverse, if_pos (by simp)]
  split
  · rcases checks_or (T := T) (S := S) (popped := poppedNames (b.inputs.map plain) (prs2.map Prod.snd)) k hw h2'
      (fun n y hm => mget_of_nodup hm (by rw [poppedNames_fst hw (by simp [hlen])]; exact hnd)) (env := []) 0
      (validate (actOf k (name, b))).2 with hc | ⟨o, hc⟩
    · simp only [List.nil_append] at hc
      simp only [validate, actOf] at hc ⊢
      rw [hc]
      simp only
      cases hv : S.code b.mapping (bindings b.inputs (prs2.map Prod.fst)) with
      | none => exact .inr fun l => by simp
      | some v =>
        refine .inl ⟨v, rfl, ?_⟩
        simp only
        rw [mget_eq_none_iff.mpr (by rw [bindings_fst _ _ (by simp [hlen])]; exact hns)]
    · right
      simp only [validate, actOf] at hc ⊢
      rw [hc]
      intro l
      cases o <;> simp
  · right
    intro l
    simp

/-! ## tokens -/

theorem tokenIndicesImpl_ok {g : Grammar} (hg : GOk g) (hd : DistinctKinds g) (hT : T.kindToIdx = genKinds g) :
    ∀ {toks : List Tok} {ss : List Sym} {ks : List Nat}, List.Forall₂ (TokenFor g) toks ss →
    ks.map (fun k => g.tokens[k]?) = ss.map some → ∀ ret, tokenIndicesImpl T toks ret = .ok (ks.reverse ++ ret)
  | [], [], [], .nil, _, ret => rfl
  | t :: toks, s :: ss, k :: ks, .cons h1 h2, h3, ret => by
    simp only [List.map_cons, List.cons.injEq] at h3
    have hkey : t.kind = keyOf s ∧ (IsTerm s ∨ s = .eof) := by
      rcases h1 with ⟨rfl, h⟩ | ⟨_, w, h, hk, _⟩
      · exact ⟨h, .inr rfl⟩
      · refine ⟨?_, .inl h⟩
        rw [hk]
        cases s <;> simp_all [IsTerm, keyOf, spelling]
    simp only [tokenIndicesImpl, hT, hkey.1, mget_kinds hg hd h3.1 hkey.2]
    rw [tokenIndicesImpl_ok hg hd hT h2 h3.2]
    simp

theorem tokenIndices_ok {g : Grammar} (hg : GOk g) (hd : DistinctKinds g) (hT : T.kindToIdx = genKinds g)
    {toks : List Tok} {ss : List Sym} {ks : List Nat} (h : List.Forall₂ (TokenFor g) toks ss)
    (hk : ks.map (fun k => g.tokens[k]?) = ss.map some) : tokenIndices T toks = .ok ks := by
  simp [tokenIndices, tokenIndicesImpl_ok hg hd hT h hk, reverse_eq]

/-! ## simulation -/

/-- The symbol stack is the evaluation of the forest. -/
structure SInv (S : Sem V) (T : ParseGen.Tables) (ps : List Ast.Prod) (g : Grammar) (toks : List Tok) (f : Forest) (i : Nat)
    (syms : List (Symb V)) (prs : List (V × Symb V)) (used : List Tok) (ws : List Str) : Prop where
  syms : syms = (prs.map Prod.snd).reverse
  each : List.Forall₂ (fun r (pr : V × Symb V) => Shows S T r pr.1 pr.2) (f.roots g.prods) prs
  occ : List.Forall₂ (fun r (pr : V × Symb V) => Occurs S ps r pr.1) (f.roots g.prods) prs
  eval : Eval S ps f ws (prs.map Prod.fst)
  texts : List.Forall₂ (fun (t : Tok) w => t.value = some (.val w)) used ws
  len : used.length = i
  get : ∀ k, k < i → used[k]? = toks[min k (toks.length - 1)]?

theorem nextToken_ok {max : Nat} {input : List Nat} {a i : Nat} (hlen : input.length ≤ max) (hpos : 0 < input.length) :
    nextToken max (some a) (min i (input.length - 1)) input =
      some (some ((input[i + 1]?).getD a), min (i + 1) (input.length - 1)) := by
  unfold nextToken
  rw [succ_ok (by omega)]
  simp only
  rw [lt_ok (by omega) (by omega)]
  by_cases h : i + 1 < input.length
  · rw [Nat.min_eq_left (by omega), Nat.min_eq_left (by omega)]
    simp [trueOrNever, h]
  · rw [Nat.min_eq_right (by omega), Nat.min_eq_right (by omega)]
    have h1 : ¬ (input.length - 1 + 1 < input.length) := by omega
    have h2 : input[i + 1]? = none := by simp; omega
    simp [trueOrNever, h1, h2]

theorem forall₂_append_left {α β : Type} {R : α → β → Prop} : ∀ {a b : List α} {c : List β}, List.Forall₂ R (a ++ b) c →
    ∃ c1 c2, c = c1 ++ c2 ∧ List.Forall₂ R a c1 ∧ List.Forall₂ R b c2
  | [], b, c, h => ⟨[], c, rfl, .nil, h⟩
  | x :: a, b, c, h => by
    cases h with
    | cons h1 h2 =>
      obtain ⟨c1, c2, rfl, h3, h4⟩ := forall₂_append_left h2
      exact ⟨_, c2, rfl, .cons h1 h3, h4⟩

theorem forall₂_append {α β : Type} {R : α → β → Prop} : ∀ {a b : List α} {c d : List β}, List.Forall₂ R a c →
    List.Forall₂ R b d → List.Forall₂ R (a ++ b) (c ++ d)
  | _, _, _, _, .nil, h => h
  | _, _, _, _, .cons h1 h2, h => .cons h1 (forall₂_append h2 h)

theorem forall₂_get {α β : Type} {R : α → β → Prop} : ∀ {a : List α} {b : List β}, List.Forall₂ R a b → ∀ {k : Nat} {x : α} {y : β},
    a[k]? = some x → b[k]? = some y → R x y
  | _, _, .nil, k, x, y, h, _ => by simp at h
  | _, _, .cons h1 h2, k, x, y, ha, hb => by
    cases k with
    | zero => simp at ha hb; subst ha hb; exact h1
    | succ k => exact forall₂_get h2 (k := k) (by simpa using ha) (by simpa using hb)

/-- How the two parsers end. -/
def Agree (S : Sem V) (T : ParseGen.Tables) (ps : List Ast.Prod) (g : Grammar) (lalr : List ItemSet)
    (look : ItemSet → Sym → Option Nat) (toks : List Tok) (ks : List Nat) (r : ParseOut V) (e : Res Lalr.PState) : Prop :=
  (r = .exceeded ∧ e = .error .outOfFuel) ∨
  (∃ st f w syms prs used ws, e = .ok st ∧ Lalr.Inv g lalr look ks st f w ∧ SInv S T ps g toks f st.i syms prs used ws ∧
    st.a = 0 ∧ (∃ A, g.prods[0]? = some ⟨g.augName, [.nonTerm A], none, none⟩ ∧ f.roots g.prods = [.nonTerm A]) ∧
    r = .symbols syms) ∨
  (e = .error .invalidToken ∧ ∃ a l, r = .invalidToken a l) ∨
  (e = .error .gotoEmpty ∧ r = .noGoto) ∨
  (¬ (WellTyped S ps ∧ NoHiding ps) ∧ ∃ em l, r = .emitError em l)

theorem simulate {g : Grammar} {l : Lalr} {look : ItemSet → Sym → Option Nat} (hg : GOk g) (he : Expressible ps)
    (hn : NamesOk ps) (hT : Lalr.TabSound g l.states l.action l.goto look) (G : GenOk ps g l T) {max : Nat}
    {toks : List Tok} {ss : List Sym} {ks : List Nat} (htok : List.Forall₂ (TokenFor g) toks ss)
    (hk : ks.map (fun k => g.tokens[k]?) = ss.map some) (hlen : toks.length ≤ max)
    (hbody : ∀ p ∈ g.prods, p.inputs.length ≤ max) :
    ∀ (n : Nat) {st : Lalr.PState} {f : Forest} {w : List Nat} {syms : List (Symb V)} {prs : List (V × Symb V)} {used : List Tok}
      {ws : List Str}, Lalr.Inv g l.states look ks st f w → SInv S T ps g toks f st.i syms prs used ws →
      Agree S T ps g l.states look toks ks
        (parseImpl max S T toks ks n st.stack (min st.i (ks.length - 1)) (some st.a) syms)
        (Lalr.run g l.action l.goto ks n st)
  | 0, st, f, w, syms, prs, used, ws, _, _ => .inl ⟨rfl, rfl⟩
  | n + 1, st, f, w, syms, prs, used, ws, hI, hS => by
    obtain ⟨s, rest, Sx, hst, hSx⟩ := hI.path.top hT
    have hlk : ks.length = ss.length := by simpa using congrArg List.length hk
    have hlt : toks.length = ks.length := by rw [hlk]; exact htok.length_eq
    have hpos : 0 < ks.length := by
      have := (List.getElem?_eq_some_iff.mp hI.cur).1; omega
    have hspec := Lalr.step_spec hg hT hI
    have hstk := congrArg List.length hst
    cases hact : l.action.tryIndex s st.a with
    | none =>
      have hstep : Lalr.step g l.action l.goto ks st = .error .invalidToken := by simp only [Lalr.step, hst, hact]
      refine .inr (.inr (.inl ⟨by simp only [Lalr.run, hstep], some st.a, syms, ?_⟩))
      rw [hst]
      simp only [parseImpl, Option.bind_some, G.action, hact]
    | some a =>
      cases a with
      | accept =>
        have hstep : Lalr.step g l.action l.goto ks st = .ok none := by simp only [Lalr.step, hst, hact]
        rw [hstep] at hspec
        rcases hspec with ⟨_, _, _, h, _⟩ | ⟨_, h1, h2⟩ | h | ⟨h, _⟩
        · cases h
        · refine .inr (.inl ⟨st, f, w, syms, prs, used, ws, by simp only [Lalr.run, hstep], hI, hS, h1, h2, ?_⟩)
          rw [hst]
          simp only [parseImpl, Option.bind_some, G.action, hact]
        · cases h
        · cases h
      | shift j =>
        have hstep : Lalr.step g l.action l.goto ks st =
            .ok (some ⟨j :: st.stack, st.i + 1, (ks[st.i + 1]?).getD st.a, st.out⟩) := by
          simp only [Lalr.step, hst, hact, Lalr.nextToken]
        rw [hstep] at hspec
        rcases hspec with ⟨st1, f1, w1, h, hI1, hm⟩ | ⟨h, _⟩ | h | ⟨h, _⟩
        · simp only [Except.ok.injEq, Option.some.injEq] at h
          subst h
          have hm' : ∃ t, g.tokens[st.a]? = some t ∧ IsTerm t ∧ f1 = f.append (.leaf t .nil) := by
            generalize hx : (⟨j :: st.stack, st.i + 1, (ks[st.i + 1]?).getD st.a, st.out⟩ : Lalr.PState) = x at hm
            cases hm with
            | shift h1 h2 => exact ⟨_, h1, h2, rfl⟩
            | reduce => simp at hx
          obtain ⟨t, ht1, ht2, rfl⟩ := hm'
          obtain ⟨q, hq⟩ : ∃ q, toks[min st.i (ks.length - 1)]? = some q :=
            ⟨_, List.getElem?_eq_getElem (by omega)⟩
          have hss : ss[min st.i (ks.length - 1)]? = some t := by
            have := congrArg (fun l => l[min st.i (ks.length - 1)]?) hk
            simp only [List.getElem?_map, hI.cur, Option.map_some, ht1] at this
            cases h : ss[min st.i (ks.length - 1)]? with
            | none => rw [h] at this; cases this
            | some y => rw [h] at this; simp at this; rw [this]
          obtain ⟨x, hx⟩ : ∃ x, Stands q t x := by
            rcases forall₂_get htok hq hss with ⟨rfl, _⟩ | ⟨_, h⟩
            · exact False.elim ht2
            · exact h
          have ih := simulate hg he hn hT G htok hk hlen hbody n hI1
            (syms := .token (some q) :: syms) (prs := prs ++ [(S.text x, .token (some q))]) (used := used ++ [q])
            (ws := ws ++ [x])
            ⟨by simp [hS.syms], by
              rw [Forest.roots_append]
              exact forall₂_append hS.each (.cons (.term hx) .nil), by
              rw [Forest.roots_append]
              exact forall₂_append hS.occ (.cons (Stands.occurs hx) .nil), by
              rw [List.map_append]
              exact eval_append hS.eval (.leaf .nil), forall₂_append hS.texts (.cons hx.2.2.1 .nil), by simp [hS.len], by
              intro k hk'
              simp only at hk'
              by_cases hlt' : k < st.i
              · rw [List.getElem?_append_left (by rw [hS.len]; exact hlt')]
                exact hS.get k hlt'
              · have : k = st.i := by omega
                subst this
                rw [List.getElem?_append_right (by rw [hS.len]), hS.len, hlt, hq]
                simp⟩
          simp only [Lalr.run, hstep]
          simp only [hst] at ih ⊢
          simp only [parseImpl, Option.bind_some, G.action, hact, nextToken_ok (hlt ▸ hlen) hpos, hq]
          exact ih
        · cases h
        · cases h
        · cases h
      | reduce p =>
        cases hp : g.prods[p]? with
        | none =>
          have hstep : Lalr.step g l.action l.goto ks st = .error .productionUndefined := by
            simp only [Lalr.step, hst, hact, hp]
          rw [hstep] at hspec; simp at hspec
        | some prod =>
          have hpm := List.mem_of_getElem? hp
          by_cases hlen' : st.stack.length < prod.inputs.length
          · have hstep : Lalr.step g l.action l.goto ks st = .error .underflow := by
              rw [hst] at hlen'
              simp only [Lalr.step, hst, hact, hp, hlen', if_true]
            rw [hstep] at hspec; simp at hspec
          · cases hdr : st.stack.drop prod.inputs.length with
            | nil =>
              have hstep : Lalr.step g l.action l.goto ks st = .error .stackEmpty := by
                rw [hst] at hlen' hdr
                simp only [Lalr.step, hst, hact, hp, hlen', if_false, hdr]
              rw [hstep] at hspec; simp at hspec
            | cons t stk =>
              obtain ⟨ts, hts1, hts2⟩ := G.prods p prod hp
              have hpop : popNStack max st.stack (some ts.length) = some (t :: stk) := by
                rw [hts2, popNStack_ok _ _ (hbody prod hpm), if_pos (by omega), hdr]
              cases hgo : l.goto.tryIndex t prod.name with
              | none =>
                have hstep : Lalr.step g l.action l.goto ks st = .error .gotoEmpty := by
                  rw [hst] at hlen' hdr
                  simp only [Lalr.step, hst, hact, hp, hlen', if_false, hdr, hgo]
                refine .inr (.inr (.inr (.inl ⟨by simp only [Lalr.run, hstep], ?_⟩)))
                rw [hst] at hpop
                simp only [hst, parseImpl, Option.bind_some, G.action, hact, hts1, hpop, G.goto, hgo]
              | some j =>
                have hstep : Lalr.step g l.action l.goto ks st =
                    .ok (some ⟨j :: t :: stk, st.i, st.a, st.out ++ [p]⟩) := by
                  rw [hst] at hlen' hdr
                  simp only [Lalr.step, hst, hact, hp, hlen', if_false, hdr, hgo]
                rw [hstep] at hspec
                rcases hspec with ⟨st1, f1, w1, h, hI1, hm⟩ | ⟨h, _⟩ | h | ⟨h, _⟩
                · simp only [Except.ok.injEq, Option.some.injEq] at h
                  subst h
                  have hm' : ∃ fa fb : Forest, p ≠ 0 ∧ f = fa.append fb ∧ fb.roots g.prods = prod.inputs ∧
                      f1 = fa.append (.node p fb .nil) := by
                    generalize hx : (⟨j :: t :: stk, st.i, st.a, st.out ++ [p]⟩ : Lalr.PState) = x at hm
                    cases hm with
                    | shift h1 h2 => simp at hx
                    | reduce h1 h2 h3 h4 =>
                      simp at hx
                      obtain ⟨_, rfl⟩ := hx
                      rw [hp] at h1; cases h1
                      exact ⟨_, _, h2, h3, h4, rfl⟩
                  obtain ⟨fa, fb, hp0, rfl, hroots, rfl⟩ := hm'
                  obtain ⟨P, hP, b, hb, hbo, hname, hin, hact'⟩ := G.acts p prod hp0 hp
                  have heach := hS.each
                  rw [Forest.roots_append, hroots] at heach
                  obtain ⟨prs1, prs2, rfl, e1, e2⟩ := forall₂_append_left heach
                  rw [hin] at e2
                  obtain ⟨ws1, ws2, vs1, vs2, rfl, hvs, v1, v2⟩ := eval_split hS.eval
                  have hvl := (eval_length (g := g.prods) v1).1
                  have hl1 := e1.length_eq
                  rw [List.map_append] at hvs
                  obtain ⟨rfl, rfl⟩ := List.append_inj hvs.symm (by simp; omega)
                  have hmax' : b.inputs.length ≤ max := by
                    have := hbody prod hpm; rw [hin] at this; simpa using this
                  have hocc := hS.occ
                  rw [Forest.roots_append, hroots, hin] at hocc
                  obtain ⟨prs1', prs2', hprs, o1, o2⟩ := forall₂_append_left hocc
                  have ho1 := o1.length_eq
                  obtain ⟨rfl, rfl⟩ := List.append_inj hprs (by omega)
                  have htyped : List.Forall₂ (Occurs S ps) (b.inputs.map Ast.InSym.lower) (prs2.map Prod.fst) := by
                    rw [List.forall₂_map_right_iff]
                    exact o2
                  by_cases hem : ∃ v, S.code b.mapping (bindings b.inputs (prs2.map Prod.fst)) = some v ∧
                      runAct max S T (actOf p (P.name, b)) ((prs1 ++ prs2).map Prod.snd).reverse =
                        .stack (.nonTerm P.name v :: (prs1.map Prod.snd).reverse)
                  case neg =>
                    have hnot := (runAct_or (max := max) (name := P.name) (k := p)
                      (fun s hs => written he hn.written hP hb hs) (hn.distinct P hP b hb) (hn.noStack P hP b hb)
                      hmax' e2).resolve_left hem
                    refine .inr (.inr (.inr (.inr ⟨fun hwt => ?_, ?_⟩)))
                    · obtain ⟨v, hv, _⟩ := hwt.1 P hP b hb _ htyped
                      exact hem ⟨v, hv, runAct_ok (max := max) (name := P.name) (k := p)
                        (fun s hs => written he hn.written hP hb hs) (hn.distinct P hP b hb)
                        (hn.noStack P hP b hb) (hwt.2 P hP b hb) hmax' e1 e2 hv⟩
                    have hemit : emitProduction max S T p syms =
                        runAct max S T (actOf p (P.name, b)) ((prs1 ++ prs2).map Prod.snd).reverse := by
                      rw [hS.syms]
                      simp only [emitProduction, hact']
                    rw [hst] at hpop
                    simp only [hst, parseImpl, Option.bind_some, G.action, hact, hts1, hpop, G.goto, hgo, hemit]
                    generalize runAct max S T (actOf p (P.name, b)) ((prs1 ++ prs2).map Prod.snd).reverse = em at hnot
                    cases em with
                    | stack l => exact absurd rfl (hnot l)
                    | error m => exact ⟨_, _, rfl⟩
                    | other => exact ⟨_, _, rfl⟩
                  obtain ⟨v, hcv, hem⟩ := hem
                  have hemit : emitProduction max S T p syms = .stack (.nonTerm P.name
                      v :: (prs1.map Prod.snd).reverse) := by
                    rw [hS.syms]
                    simp only [emitProduction, hact']
                    exact hem
                  by_cases hhas : S.has P.name v = true
                  · have hsym : P.name ∈ T.symbols := by
                      rw [G.symbols]; exact List.mem_map_of_mem hP
                    have hnew : List.Forall₂ (fun r (pr : V × Symb V) => Shows S T r pr.1 pr.2)
                        ((fa.append (.node p fb .nil)).roots g.prods)
                        (prs1 ++ [(v,
                          .nonTerm P.name v)]) := by
                      rw [Forest.roots_append]
                      refine forall₂_append e1 ?_
                      simp only [Forest.roots, hp, Option.map_some, Option.getD_some, hname]
                      exact .cons (.nonTerm hsym hhas) .nil
                    have hnewo : List.Forall₂ (fun r (pr : V × Symb V) => Occurs S ps r pr.1)
                        ((fa.append (.node p fb .nil)).roots g.prods) (prs1 ++ [(v, .nonTerm P.name v)]) := by
                      rw [Forest.roots_append]
                      refine forall₂_append o1 ?_
                      simp only [Forest.roots, hp, Option.map_some, Option.getD_some, hname]
                      exact .cons (.nonTerm hP hb (by simpa using htyped.length_eq.symm)
                        (fun i s u h1 h2 => forall₂_get htyped h1 h2) hcv) .nil
                    have ih := simulate hg he hn hT G htok hk hlen hbody n hI1
                      (syms := .nonTerm P.name v ::
                        (prs1.map Prod.snd).reverse) (used := used) (ws := ws1 ++ ws2)
                      ⟨by simp, hnew, hnewo, by
                        rw [List.map_append]
                        have := Eval.node hbo v2 hcv (Eval.nil (S := S) (ps := ps))
                        rw [List.append_nil] at this
                        exact eval_append v1 this, hS.texts, hS.len, hS.get⟩
                    have hall : (Symb.nonTerm P.name v ::
                        (prs1.map Prod.snd).reverse).all (isSymbol S T) = true := by
                      rw [List.all_eq_true]
                      intro y hy
                      have hy' : ∃ pr ∈ prs1 ++ [(v,
                          Symb.nonTerm P.name v)], pr.2 = y := by
                        simp only [List.mem_cons, List.mem_reverse, List.mem_map] at hy
                        rcases hy with rfl | ⟨pr, h1, h2⟩
                        · exact ⟨_, List.mem_append_right _ List.mem_cons_self, rfl⟩
                        · exact ⟨pr, List.mem_append_left _ h1, h2⟩
                      obtain ⟨pr, h1, rfl⟩ := hy'
                      obtain ⟨k, hk1⟩ := List.getElem?_of_mem h1
                      have hkl := (List.getElem?_eq_some_iff.mp hk1).1
                      rw [← hnew.length_eq] at hkl
                      exact (forall₂_get hnew (List.getElem?_eq_getElem hkl) hk1).isSymbol
                    simp only [Lalr.run, hstep]
                    rw [hst] at hpop
                    simp only [hst, parseImpl, Option.bind_some, G.action, hact, hts1, hpop, G.goto, hgo, hemit, hall, if_true]
                    exact ih
                  · refine .inr (.inr (.inr (.inr ⟨fun hwt => ?_, ?_⟩)))
                    · obtain ⟨v', h1, h2⟩ := hwt.1 P hP b hb _ htyped
                      rw [hcv] at h1
                      exact hhas (Option.some.inj h1 ▸ h2)
                    have hall : (Symb.nonTerm P.name v ::
                        (prs1.map Prod.snd).reverse).all (isSymbol S T) = false := by
                      rw [Bool.not_eq_true] at hhas
                      simp only [List.all_cons, isSymbol, hhas, Bool.and_false, Bool.false_and]
                    rw [hst] at hpop
                    simp only [hst, parseImpl, Option.bind_some, G.action, hact, hts1, hpop, G.goto, hgo, hemit, hall]
                    exact ⟨_, _, rfl⟩
                · cases h
                · cases h
                · cases h

end Verif.Ts
