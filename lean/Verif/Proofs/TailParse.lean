import Verif.Proofs.TailLen
import Verif.Proofs.TsFilesParse

/-! # The chain of tail calls of `Parse` is bounded -/

namespace Verif.MiniTs
set_option linter.unusedSectionVars false
variable {U : User} {G : Gen}

mutual
/-- The names that a pattern binds. -/
def Exp.binds : Exp → List Str
  | .infer x => [x]
  | .inferExt x _ => [x]
  | .tup es => es.binds
  | .obj es => es.binds
  | .tmpl es => es.binds
  | _ => []
def Exps.binds : Exps → List Str
  | .nil => []
  | .cons _ e es => e.binds ++ es.binds
end

/-- The bindings are of those names. -/
def Names (b : Env) (xs : List Str) : Prop := ∀ p ∈ b, p.1 ∈ xs

theorem names_append {b b' : Env} {xs ys : List Str} (h : Names b xs) (h' : Names b' ys) : Names (b ++ b') (xs ++ ys) := by
  intro p hp
  rcases List.mem_append.mp hp with hp | hp
  · exact List.mem_append_left _ (h p hp)
  · exact List.mem_append_right _ (h' p hp)

theorem names_test {v t : Ty} {b : Env} (h : test U v t = some b) : b = [] := by
  unfold test at h
  split at h
  · exact (Option.some.inj h).symm
  · cases h

section
variable {c : Call}
mutual
theorem mat_names : ∀ (e : Exp) (env : Env) (v : Ty) (b : Env), mat U c env v e = some (some b) → Names b e.binds
  | .infer x, env, v, b, h => by simp only [mat, Option.some.injEq] at h; subst h; intro p hp; simp at hp; simp [Exp.binds, hp]
  | .inferExt x e, env, v, b, h => by
    simp only [mat] at h
    obtain ⟨t, _, h2⟩ := Option.map_eq_some_iff.mp h
    obtain ⟨b', _, h4⟩ := Option.map_eq_some_iff.mp h2
    subst h4
    intro p hp; simp at hp; simp [Exp.binds, hp]
  | .tup es, env, v, b, h => by
    cases v <;> simp [mat] at h
    exact matTup_names es env _ b h
  | .obj es, env, v, b, h => by
    cases v <;> simp [mat] at h
    exact matObj_names es env _ b h
  | .tmpl ps, env, v, b, h => by
    simp only [mat] at h
    unfold matchTmpl at h
    split at h
    · split at h <;> cases h <;> (intro p hp; simp at hp; simp [Exp.binds, Exps.binds, hp])
    · split at h <;> cases h
      intro p hp
      simp at hp
      rcases hp with rfl | rfl <;> simp [Exp.binds, Exps.binds]
    · cases h
  | .lit _, _, _, _, h => by simp [mat] at h
  | .ref _ _, _, _, _, h => by simp [mat] at h
  | .idx _ _, _, _, _, h => by simp [mat] at h
  | .keyof _, _, _, _, h => by simp [mat] at h
  | .arr _, _, _, _, h => by simp [mat] at h
  | .union _, _, _, _, h => by simp [mat] at h
  | .cond _ _ _ _, _, _, _, h => by simp [mat] at h
  | .code _ _, _, _, _, h => by simp [mat] at h
theorem pat_names : ∀ (e : Exp) (env : Env) (v : Ty) (b : Env),
    (if isPattern e then mat U c env v e else (ev U c env e).map (test U v)) = some (some b) → Names b e.binds := by
  intro e env v b h
  by_cases hp : isPattern e
  · simp only [hp, if_true] at h
    exact mat_names e env v b h
  · simp only [hp] at h
    obtain ⟨t, _, h2⟩ := Option.map_eq_some_iff.mp h
    rw [names_test h2]
    intro p hp; cases hp
theorem matTup_names : ∀ (es : Exps) (env : Env) (vs : List Ty) (b : Env), matTup U c env vs es = some (some b) → Names b es.binds
  | .nil, env, vs, b, h => by
    cases vs <;> simp [matTup] at h
    subst h; intro p hp; cases hp
  | .cons .spread e .nil, env, vs, b, h => by
    have : Names b e.binds := by cases vs <;> simp only [matTup] at h <;> exact pat_names e env _ b h
    intro p hp
    rw [Exps.binds]
    exact List.mem_append_left _ (this p hp)
  | .cons .spread e (.cons hd e' es), env, vs, b, h => by cases vs <;> simp [matTup] at h
  | .cons .elem e es, env, [], b, h => by simp [matTup] at h
  | .cons (.member k o) e es, env, [], b, h => by simp [matTup] at h
  | .cons .elem e es, env, v :: vs, b, h => by
    simp only [matTup] at h
    obtain ⟨a, h1, h2⟩ := Option.bind_eq_some_iff.mp h
    cases a with
    | none => cases h2
    | some b1 =>
      simp only at h2
      obtain ⟨r, h3, h4⟩ := Option.map_eq_some_iff.mp h2
      obtain ⟨b2, h5, h6⟩ := Option.map_eq_some_iff.mp h4
      subst h5; subst h6
      rw [Exps.binds]
      exact names_append (pat_names e env v b1 h1) (matTup_names es env vs b2 h3)
  | .cons (.member k o) e es, env, v :: vs, b, h => by
    simp only [matTup] at h
    obtain ⟨a, h1, h2⟩ := Option.bind_eq_some_iff.mp h
    cases a with
    | none => cases h2
    | some b1 =>
      simp only at h2
      obtain ⟨r, h3, h4⟩ := Option.map_eq_some_iff.mp h2
      obtain ⟨b2, h5, h6⟩ := Option.map_eq_some_iff.mp h4
      subst h5; subst h6
      rw [Exps.binds]
      exact names_append (pat_names e env v b1 h1) (matTup_names es env vs b2 h3)
theorem matObj_names : ∀ (es : Exps) (env : Env) (vs : List (Key × Bool × Ty)) (b : Env), matObj U c env vs es = some (some b) →
    Names b es.binds
  | .nil, env, vs, b, h => by
    simp only [matObj, Option.some.injEq] at h
    subst h; intro p hp; cases hp
  | .cons .spread e es, env, vs, b, h => by simp [matObj] at h
  | .cons .elem e es, env, vs, b, h => by simp [matObj] at h
  | .cons (.member k o) e es, env, vs, b, h => by
    simp only [matObj] at h
    cases hk : member k vs with
    | none =>
      simp only [hk] at h
      by_cases ho : o
      · simp only [ho, if_true] at h
        intro p hp
        rw [Exps.binds]
        exact List.mem_append_right _ (matObj_names es env vs b h p hp)
      · simp [ho] at h
    | some p =>
      obtain ⟨q, v⟩ := p
      cases q with
      | true => simp [hk] at h
      | false =>
        simp only [hk] at h
        obtain ⟨a, h1, h2⟩ := Option.bind_eq_some_iff.mp h
        cases a with
        | none => cases h2
        | some b1 =>
          simp only at h2
          obtain ⟨r, h3, h4⟩ := Option.map_eq_some_iff.mp h2
          obtain ⟨b2, h5, h6⟩ := Option.map_eq_some_iff.mp h4
          subst h5; subst h6
          rw [Exps.binds]
          exact names_append (pat_names e env v b1 h1) (matObj_names es env vs b2 h3)
end
end

/-- The aliases in tail position with their arguments, below patterns that do not bind `x`. -/
def Exp.tailArgs (x : Str) : Exp → Option (List (Str × Exps))
  | .ref y es => some [(y, es)]
  | .cond _ e t f =>
    if x ∈ e.binds then none
    else (t.tailArgs x).bind fun a => (f.tailArgs x).map (a ++ ·)
  | _ => some []

theorem mget_names {x : Str} {b env : Env} {xs : List Str} (h : Names b xs) (hx : x ∉ xs) : mget x (b ++ env) = mget x env := by
  induction b with
  | nil => rfl
  | cons p b ih =>
    obtain ⟨y, v⟩ := p
    have : x ≠ y := fun e => hx (e ▸ h (y, v) (List.mem_cons_self ..))
    rw [List.cons_append, mget, if_neg this]
    exact ih fun q hq => h q (List.mem_cons_of_mem _ hq)

/-- An alias in tail position gets the values of its arguments. -/
theorem evTail_args {c : Call} (x : Str) : ∀ (e : Exp) (env : Env) (l : List (Str × Exps)) (y : Str) (bs : List Ty),
    e.tailArgs x = some l → evTail U c env e = some (.tail y bs) →
    ∃ es env', (y, es) ∈ l ∧ mget x env' = mget x env ∧ evs U c env' es = some bs := by
  intro e
  induction e using Exp.rec (motive_2 := fun _ => True) with
  | ref z es _ =>
    intro env l y bs hl h
    cases hl
    cases es with
    | nil =>
      rw [evTail] at h
      split at h
      · cases h
      · cases h
        exact ⟨.nil, env, by simp, rfl, by simp [evs]⟩
    | cons hd e es =>
      rw [evTail] at h
      obtain ⟨vs, h1, h2⟩ := Option.map_eq_some_iff.mp h
      cases h2
      exact ⟨_, env, by simp, rfl, h1⟩
  | cond ce e t f _ _ iht ihf =>
    intro env l y bs hl h
    rw [Exp.tailArgs] at hl
    by_cases hx : x ∈ e.binds
    · rw [if_pos hx] at hl; cases hl
    rw [if_neg hx] at hl
    obtain ⟨l1, hl1, hl2⟩ := Option.bind_eq_some_iff.mp hl
    obtain ⟨l2, hl3, hl4⟩ := Option.map_eq_some_iff.mp hl2
    subst hl4
    rw [evTail] at h
    obtain ⟨a, h1, h2⟩ := Option.bind_eq_some_iff.mp h
    cases he : early a (naked env ce) with
    | some r =>
      rw [he] at h2
      obtain ⟨u, _, h4⟩ := Option.map_eq_some_iff.mp h2
      cases h4
    | none =>
      rw [he] at h2
      obtain ⟨r, h3, h4⟩ := Option.bind_eq_some_iff.mp h2
      cases r with
      | some b =>
        obtain ⟨es, env', h5, h6, h7⟩ := iht (b ++ env) l1 y bs hl1 h4
        exact ⟨es, env', List.mem_append_left _ h5, h6.trans (mget_names (pat_names e env a b h3) hx), h7⟩
      | none =>
        obtain ⟨es, env', h5, h6, h7⟩ := ihf env l2 y bs hl3 h4
        exact ⟨es, env', List.mem_append_right _ h5, h6, h7⟩
  | lit => intro env l y bs hl h; simp [evTail] at h
  | idx | keyof | arr | tup | obj | union | tmpl | code =>
    intro env l y bs hl h
    rw [evTail] at h
    obtain ⟨a, _, h2⟩ := Option.map_eq_some_iff.mp h
    cases h2
  | infer | inferExt => intro env l y bs hl h; simp [evTail] at h
  | nil => trivial
  | cons => trivial

/-- The last of a list of arguments. -/
def Exps.last : Exps → Option Exp
  | .nil => none
  | .cons .elem e .nil => some e
  | .cons _ _ .nil => none
  | .cons _ _ es => es.last

theorem evs_last {c : Call} {env : Env} {e : Exp} : ∀ (es : Exps) (vs : List Ty), es.last = some e → evs U c env es = some vs →
    ∃ w, ev U c env e = some w ∧ vs.getLast? = some w
  | .nil, _, h, _ => by simp [Exps.last] at h
  | .cons .elem e' .nil, vs, h, hv => by
    simp only [Exps.last, Option.some.injEq] at h
    subst h
    simp only [evs] at hv
    obtain ⟨a, h1, h2⟩ := Option.bind_eq_some_iff.mp hv
    cases h2
    exact ⟨a, h1, rfl⟩
  | .cons .spread e' .nil, vs, h, _ => by simp [Exps.last] at h
  | .cons (.member _ _) e' .nil, vs, h, _ => by simp [Exps.last] at h
  | .cons .elem e' (.cons hd e2 es), vs, h, hv => by
    simp only [Exps.last] at h
    simp only [evs.eq_3] at hv
    obtain ⟨a, _, h2⟩ := Option.bind_eq_some_iff.mp hv
    obtain ⟨b, h3, h4⟩ := Option.map_eq_some_iff.mp h2
    obtain ⟨w, h5, h6⟩ := evs_last (.cons hd e2 es) b h h3
    subst h4
    exact ⟨w, h5, by rw [List.getLast?_cons, h6]; rfl⟩
  | .cons (.member _ _) e' (.cons hd e2 es), vs, h, hv => by
    simp only [Exps.last] at h
    simp only [evs.eq_3] at hv
    obtain ⟨a, _, h2⟩ := Option.bind_eq_some_iff.mp hv
    obtain ⟨b, h3, h4⟩ := Option.map_eq_some_iff.mp h2
    obtain ⟨w, h5, h6⟩ := evs_last (.cons hd e2 es) b h h3
    subst h4
    exact ⟨w, h5, by rw [List.getLast?_cons, h6]; rfl⟩
  | .cons .spread e' (.cons hd e2 es), vs, h, hv => by
    simp only [Exps.last] at h
    rw [evs.eq_2] at hv
    obtain ⟨a, _, h2⟩ := Option.bind_eq_some_iff.mp hv
    obtain ⟨b, h3, h4⟩ := Option.bind_eq_some_iff.mp h2
    obtain ⟨w, h5, h6⟩ := evs_last (.cons hd e2 es) b h h3
    unfold splice at h4
    split at h4
    · cases h4
      exact ⟨w, h5, by rw [List.getLast?_append, h6]; rfl⟩
    · cases h4

theorem chain_more {P : Prog} {inner : Mod → Call} : ∀ {i j : Nat}, i ≤ j → ∀ {m : Mod} {x : Str} {as : List Ty} {v : Ty},
    chain U P inner i m x as = some v → chain U P inner j m x as = some v
  | 0, _, _, _, _, _, _, h => by simp [chain] at h
  | i + 1, 0, hij, _, _, _, _, _ => by omega
  | i + 1, j + 1, hij, m, x, as, v, h => by
    rw [chain] at h ⊢
    cases hd : P m x with
    | none => simp [hd] at h
    | some d =>
      simp only [hd] at h ⊢
      by_cases hl : d.params.length = as.length
      · simp only [hl, if_true] at h ⊢
        cases ho : evTail U (inner d.mod) (d.params.zip as) d.body with
        | none => simp [ho] at h
        | some o =>
          rw [ho] at h
          cases o with
          | done t => exact h
          | tail y bs => exact chain_more (by omega) h
      · simp [hl] at h

/-- An alias without a successor, or with one. -/
theorem after_cases {P : Prog} {inner : Mod → Call} {m m' : Mod} {x : Str} {as : List Ty} (d : List Str × Exp)
    (hd : P m x = some ⟨m', d.1, d.2⟩) :
    (∀ i, after U P inner (i + 1) m x as = none) ∨
    d.1.length = as.length ∧ ∃ y bs, evTail U (inner m') (d.1.zip as) d.2 = some (.tail y bs) ∧
      ∀ i, after U P inner (i + 1) m x as = after U P inner i m' y bs := by
  by_cases hl : d.1.length = as.length
  · cases ho : evTail U (inner m') (d.1.zip as) d.2 with
    | none => exact .inl fun i => by simp [after, next, hd, hl, ho]
    | some o =>
      cases o with
      | done t => exact .inl fun i => by simp [after, next, hd, hl, ho]
      | tail y bs => exact .inr ⟨hl, y, bs, rfl, fun i => by simp [after, next, hd, hl, ho]⟩
  · exact .inl fun i => by simp [after, next, hd, hl]

theorem after_none {P : Prog} {inner : Mod → Call} (i : Nat) {m : Mod} {x : Str} {as : List Ty} (h : P m x = none) :
    after U P inner (i + 1) m x as = none := by simp [after, next, h]

theorem after_none_add {P : Prog} {inner : Mod → Call} (i : Nat) : ∀ {n : Nat} {m : Mod} {x : Str} {as : List Ty},
    after U P inner n m x as = none → after U P inner (n + i) m x as = none
  | 0, _, _, _, h => by simp [after] at h
  | n + 1, m, x, as, h => by
    rw [show n + 1 + i = (n + i) + 1 by omega]
    rw [after] at h ⊢
    cases hn : next U P inner m x as with
    | none => rfl
    | some s =>
      rw [hn] at h
      exact after_none_add i h

/-- A chain does not get longer than its tail calls. -/
theorem chain_of_after {P : Prog} {inner : Mod → Call} : ∀ (n : Nat) {m : Mod} {x : Str} {as : List Ty} {j : Nat} {v : Ty},
    after U P inner n m x as = none → chain U P inner j m x as = some v → chain U P inner n m x as = some v
  | 0, _, _, _, _, _, h, _ => by simp [after] at h
  | n + 1, m, x, as, 0, v, _, hc => by simp [chain] at hc
  | n + 1, m, x, as, j + 1, v, h, hc => by
    rw [chain] at hc ⊢
    rw [after, next] at h
    cases hd : P m x with
    | none => simp [hd] at hc
    | some d =>
      simp only [hd] at h hc ⊢
      by_cases hl : d.params.length = as.length
      · simp only [hl, if_true] at h hc ⊢
        cases ho : evTail U (inner d.mod) (d.params.zip as) d.body with
        | none => simp [ho] at hc
        | some o =>
          simp only [ho] at h hc ⊢
          cases o with
          | done t => exact hc
          | tail y bs => exact chain_of_after n (by simpa using h) hc
      · simp [hl] at hc

theorem parse_unknown {G : Gen} {c : Char} {k : Str} (h : c ≠ 'U' ∧ c ≠ 'L' ∧ c ≠ 't' ∧ c ≠ 'a')
    (hd : mget (c :: k) (declare .parse parseDecls) = none) : prog G .parse (c :: k) = none := by
  have h1 : mget (c :: k) (qualify (name! "U.") (declare .util utilDecls)) = none := qualify_head (Ne.symm h.1) _ _ _
  have h2 : mget (c :: k) (qualify (name! "L.") (declare .lex lexDecls)) = none := qualify_head (Ne.symm h.2.1) _ _ _
  have h3 : mget (c :: k) (qualify (name! "type_defs.") (defsNames G)) = none := qualify_head (Ne.symm h.2.2.1) _ _ _
  have h4 : mget (c :: k) (qualify (name! "actions.") (actionsNames G)) = none := qualify_head (Ne.symm h.2.2.2) _ _ _
  rw [prog, genScope, mget_append, mget_append, mget_append, mget_append, hd, h1, h2, h3, h4]
  rfl

section
variable {inner : Mod → Call} (hb : Below U (prog G) inner)
include hb

theorem pred_below {d : Nat} {p : Ty} (h : inner .parse (name! "U.Pred") [.num (d + 1)] = some p) : p = .num d ∨ p = .never := by
  have := hb _ _ _ _ h
  rw [parse_pred, show Ty.num (d + 1) = num? (some (d + 1)) from rfl, pred_eq] at this
  rw [← Option.some.inj this]
  simp only [Ts.pred, Ts.predTable]
  have key : ∀ l : List Nat, mget (d + 1) (l.map fun i => (i + 1, i)) = none ∨ mget (d + 1) (l.map fun i => (i + 1, i)) = some d := by
    intro l
    induction l with
    | nil => exact .inl rfl
    | cons i l ih =>
      simp only [List.map_cons, mget]
      by_cases h : d + 1 = i + 1
      · rw [if_pos h]
        exact .inr (by congr 1; omega)
      · rw [if_neg h]; exact ih
  rcases key (List.range G.max) with h | h <;> rw [h]
  · exact .inr rfl
  · exact .inl rfl

/-- `ParseImplShift` and `ParseImplReduce`. -/
theorem next_after {y : Str} {bs : List Ty} {d : Nat} (hy : y = name! "ParseImplShift" ∨ y = name! "ParseImplReduce")
    (hlast : bs.getLast? = some (.num (d + 1)))
    (ih : ∀ (as : List Ty) (p : Ty), p = .num d ∨ p = .never → as.getLast? = some p →
      after U (prog G) inner (2 * d + 1) .parse (name! "ParseImpl") as = none) :
    after U (prog G) inner (2 * d + 2) .parse y bs = none := by
  have go : ∀ (D : List Str × Exp) (l : List (Str × Exps)), prog G .parse y = some ⟨.parse, D.1, D.2⟩ →
      (∀ as : List Ty, D.1.length = as.length → as.getLast? = some (.num (d + 1)) →
        mget (name! "maxRecursionDepth") (D.1.zip as) = some (.num (d + 1))) →
      D.2.tailArgs (name! "maxRecursionDepth") = some l →
      (∀ q ∈ l, q.1 = name! "ParseImpl" ∧ q.2.last = some (app! "U.Pred" ((var! "maxRecursionDepth") ;; .nil))) →
      after U (prog G) inner (2 * d + 2) .parse y bs = none := by
    intro D l hD henv hl hq
    obtain h1 | ⟨hlen, z, cs, h1, h3⟩ := after_cases (as := bs) (inner := inner) D hD
    · exact h1 (2 * d + 1)
    · obtain ⟨es, env', h4, h5, h6⟩ := evTail_args _ D.2 _ l z cs hl h1
      obtain ⟨h7, h8⟩ := hq _ h4
      simp only at h7 h8
      subst h7
      obtain ⟨w, h9, h10⟩ := evs_last es cs h8 h6
      rw [henv bs hlen hlast] at h5
      simp only [ev, evs, h5, Option.bind_some, Option.map_some] at h9
      rw [h3]
      exact ih cs w (pred_below hb h9) h10
  rcases hy with rfl | rfl
  · refine go parse.ParseImplShift [(name! "ParseImpl", _)] rfl ?_ rfl ?_
    · intro as hlen hl
      obtain ⟨a1, a2, a3, a4, a5, a6, a7, a8, rfl⟩ : ∃ a1 a2 a3 a4 a5 a6 a7 a8, as = [a1, a2, a3, a4, a5, a6, a7, a8] := by
        match as, hlen with
        | [a1, a2, a3, a4, a5, a6, a7, a8], _ => exact ⟨_, _, _, _, _, _, _, _, rfl⟩
      simp at hl
      subst hl
      simp [parse.ParseImplShift, mget]
    · intro q hq
      simp only [List.mem_singleton] at hq
      rw [hq]
      exact ⟨rfl, rfl⟩
  · refine go parse.ParseImplReduce [(name! "ParseImpl", _)] rfl ?_ rfl ?_
    · intro as hlen hl
      obtain ⟨a1, a2, a3, a4, a5, a6, a7, a8, a9, rfl⟩ : ∃ a1 a2 a3 a4 a5 a6 a7 a8 a9, as = [a1, a2, a3, a4, a5, a6, a7, a8, a9] := by
        match as, hlen with
        | [a1, a2, a3, a4, a5, a6, a7, a8, a9], _ => exact ⟨_, _, _, _, _, _, _, _, _, rfl⟩
      simp at hl
      subst hl
      simp [parse.ParseImplReduce, mget]
    · intro q hq
      simp only [List.mem_singleton] at hq
      rw [hq]
      exact ⟨rfl, rfl⟩

omit hb in
theorem impl_env {as : List Ty} {D : Ty} (hlen : parse.ParseImpl.1.length = as.length) (hl : as.getLast? = some D) :
    mget (name! "maxRecursionDepth") (parse.ParseImpl.1.zip as) = some D := by
  obtain ⟨a1, a2, a3, a4, a5, a6, a7, rfl⟩ : ∃ a1 a2 a3 a4 a5 a6 a7, as = [a1, a2, a3, a4, a5, a6, a7] := by
    match as, hlen with
    | [a1, a2, a3, a4, a5, a6, a7], _ => exact ⟨_, _, _, _, _, _, _, rfl⟩
  simp at hl
  subst hl
  simp [parse.ParseImpl, mget]

/-- `ParseImpl`, from a depth. -/
theorem impl_after : ∀ (d : Nat) (as : List Ty) (p : Ty), p = .num d ∨ p = .never → as.getLast? = some p →
    after U (prog G) inner (2 * d + 1) .parse (name! "ParseImpl") as = none := by
  intro d
  induction d with
  | zero =>
    intro as p hp hl
    obtain h1 | ⟨hlen, z, cs, h1, _⟩ := after_cases (U := U) (P := prog G) (as := as) (inner := inner) (m := .parse) (m' := .parse)
      (x := name! "ParseImpl") parse.ParseImpl rfl
    · exact h1 0
    · exfalso
      have henv := impl_env hlen hl
      rcases hp with rfl | rfl
      · simp only [parse.ParseImpl] at h1 henv
        simp only [evTail, ev, henv, Option.bind_some, early, isPattern, test, accepts, lift, Option.map_some, decide_true, if_true,
          Bool.false_eq_true, if_false] at h1
        cases h1
      · simp only [parse.ParseImpl] at h1 henv
        simp only [evTail, ev, henv, Option.bind_some, early, naked, Option.isSome_some, if_true, Option.map_some] at h1
        cases h1
  | succ d ih =>
    intro as p hp hl
    obtain h1 | ⟨hlen, z, cs, h1, h3⟩ := after_cases (U := U) (P := prog G) (as := as) (inner := inner) (m := .parse) (m' := .parse)
      (x := name! "ParseImpl") parse.ParseImpl rfl
    · exact h1 _
    · have henv := impl_env hlen hl
      rcases hp with rfl | rfl
      · obtain ⟨es, env', h4, h5, h6⟩ := evTail_args (name! "maxRecursionDepth") parse.ParseImpl.2 _
          [(name! "ParseImplShift", _), (name! "ParseImplReduce", _), (name! "symbolStack", .nil)] z cs rfl h1
        rw [henv] at h5
        rw [show 2 * (d + 1) + 1 = (2 * d + 2) + 1 by omega, h3]
        simp only [List.mem_cons, Prod.mk.injEq, List.not_mem_nil, or_false] at h4
        rcases h4 with ⟨rfl, rfl⟩ | ⟨rfl, rfl⟩ | ⟨rfl, _⟩
        · obtain ⟨w, h7, h8⟩ := evs_last _ cs (e := var! "maxRecursionDepth") rfl h6
          simp only [ev, h5, Option.some.injEq] at h7
          subst h7
          exact next_after hb (.inl rfl) h8 ih
        · obtain ⟨w, h7, h8⟩ := evs_last _ cs (e := var! "maxRecursionDepth") rfl h6
          simp only [ev, h5, Option.some.injEq] at h7
          subst h7
          exact next_after hb (.inr rfl) h8 ih
        · exact after_none _ (parse_unknown (by decide) rfl)
      · exfalso
        simp only [parse.ParseImpl] at h1 henv
        simp only [evTail, ev, henv, Option.bind_some, early, naked, Option.isSome_some, if_true, Option.map_some] at h1
        cases h1

/-- `Parse`. -/
theorem parse_after (as : List Ty) : after U (prog G) inner 102 .parse (name! "Parse") as = none := by
  obtain h1 | ⟨hlen, z, cs, h1, h3⟩ := after_cases (U := U) (P := prog G) (as := as) (inner := inner) (m := .parse) (m' := .parse)
      (x := name! "Parse") parse.Parse rfl
  · exact h1 101
  · obtain ⟨es, env', h4, h5, h6⟩ := evTail_args (name! "maxRecursionDepth") parse.Parse.2 _
      [(name! "ParseImpl", _), (name! "input", .nil)] z cs rfl h1
    rw [show 102 = 101 + 1 from rfl, h3]
    simp only [List.mem_cons, Prod.mk.injEq, List.not_mem_nil, or_false] at h4
    rcases h4 with ⟨rfl, rfl⟩ | ⟨rfl, _⟩
    · obtain ⟨w, h7, h8⟩ := evs_last _ cs (e := .lit (.num 50)) rfl h6
      simp only [ev, Option.some.injEq] at h7
      subst h7
      exact impl_after hb 50 cs _ (.inl rfl) h8
    · exact after_none _ (parse_unknown (by decide) rfl)

end
end Verif.MiniTs
