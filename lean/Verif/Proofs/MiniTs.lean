import Verif.Model.TsProg

/-! # The limit of `run`, and the equation it satisfies -/

namespace Verif.MiniTs
set_option linter.unusedSectionVars false
variable {U : User}

/-- A sequence of partial functions that settles. -/
structure Settles (c : Nat → Call) (l : Call) : Prop where
  ex : ∀ x a v, l x a = some v → ∃ n, ∀ m, n ≤ m → c m x a = some v

theorem settles_const (l : Call) : Settles (fun _ => l) l := ⟨fun _ _ _ h => ⟨0, fun _ _ => h⟩⟩

/-- Eventually. -/
def Ev (p : Nat → Prop) : Prop := ∃ n, ∀ m, n ≤ m → p m

theorem Ev.of {p : Nat → Prop} (h : ∀ m, p m) : Ev p := ⟨0, fun m _ => h m⟩

theorem Ev.mp {p q : Nat → Prop} (hp : Ev p) (h : ∀ m, p m → q m) : Ev q := by
  obtain ⟨n, hn⟩ := hp
  exact ⟨n, fun m hm => h m (hn m hm)⟩

theorem Ev.and {p q : Nat → Prop} (hp : Ev p) (hq : Ev q) : Ev fun m => p m ∧ q m := by
  obtain ⟨n, hn⟩ := hp
  obtain ⟨k, hk⟩ := hq
  exact ⟨max n k, fun m hm => ⟨hn m (by omega), hk m (by omega)⟩⟩

section
variable {c : Nat → Call} {l : Call} (hc : Settles c l)
include hc

mutual
theorem ev_ev : ∀ (e : Exp) (env : Env) (v : Ty), ev U l env e = some v → Ev fun m => ev U (c m) env e = some v
  | .lit t, env, v, h => .of fun m => by simpa [ev] using h
  | .ref x .nil, env, v, h => by
    simp only [ev] at h ⊢
    cases hx : mget x env with
    | some u => rw [hx] at h; exact .of fun m => h
    | none => rw [hx] at h; exact hc.ex _ _ _ h
  | .ref x (.cons hd e es), env, v, h => by
    rw [ev] at h
    obtain ⟨vs, h1, h2⟩ := Option.bind_eq_some_iff.mp h
    refine ((evs_ev _ env vs h1).and (hc.ex _ _ _ h2)).mp fun m hm => ?_
    rw [ev, hm.1]; exact hm.2
  | .idx t k, env, v, h => by
    rw [ev] at h
    obtain ⟨a, h1, h2⟩ := Option.bind_eq_some_iff.mp h
    obtain ⟨b, h3, h4⟩ := Option.bind_eq_some_iff.mp h2
    refine ((ev_ev t env a h1).and (ev_ev k env b h3)).mp fun m hm => ?_
    rw [ev, hm.1, hm.2]; exact h4
  | .keyof t, env, v, h => by
    rw [ev] at h
    obtain ⟨a, h1, h2⟩ := Option.bind_eq_some_iff.mp h
    exact (ev_ev t env a h1).mp fun m hm => by rw [ev, hm]; exact h2
  | .arr t, env, v, h => by
    rw [ev] at h
    obtain ⟨a, h1, h2⟩ := Option.map_eq_some_iff.mp h
    exact (ev_ev t env a h1).mp fun m hm => by rw [ev, hm, ← h2]; rfl
  | .tup es, env, v, h => by
    rw [ev] at h
    obtain ⟨a, h1, h2⟩ := Option.map_eq_some_iff.mp h
    exact (evs_ev es env a h1).mp fun m hm => by rw [ev, hm, ← h2]; rfl
  | .obj es, env, v, h => by
    rw [ev] at h
    obtain ⟨a, h1, h2⟩ := Option.map_eq_some_iff.mp h
    exact (evMems_ev es env a h1).mp fun m hm => by rw [ev, hm, ← h2]; rfl
  | .union es, env, v, h => by
    rw [ev] at h
    obtain ⟨a, h1, h2⟩ := Option.map_eq_some_iff.mp h
    exact (evs_ev es env a h1).mp fun m hm => by rw [ev, hm, ← h2]; rfl
  | .tmpl es, env, v, h => by
    rw [ev] at h
    obtain ⟨a, h1, h2⟩ := Option.bind_eq_some_iff.mp h
    exact (evs_ev es env a h1).mp fun m hm => by rw [ev, hm]; exact h2
  | .infer x, env, v, h => by simp [ev] at h
  | .inferExt x e, env, v, h => by simp [ev] at h
  | .code s xs, env, v, h => .of fun m => by simpa [ev] using h
  | .cond ce e t f, env, v, h => by
    rw [ev] at h
    obtain ⟨a, h1, h2⟩ := Option.bind_eq_some_iff.mp h
    have hpat : ∀ r : Option Env,
        (if isPattern e then mat U l env a e else (ev U l env e).map (test U a)) = some r →
        Ev fun m => (if isPattern e then mat U (c m) env a e else (ev U (c m) env e).map (test U a)) = some r := by
      intro r hr
      by_cases hp : isPattern e
      · simp only [hp, if_true] at hr ⊢
        exact mat_ev e env a r hr
      · simp only [hp] at hr ⊢
        obtain ⟨b, h3, h4⟩ := Option.map_eq_some_iff.mp hr
        exact (ev_ev e env b h3).mp fun m hm => by rw [hm, ← h4]; rfl
    cases he : early a (naked env ce) with
    | some r =>
      rw [he] at h2
      exact (ev_ev ce env a h1).mp fun m hm => by rw [ev, hm, Option.bind_some, he]; exact h2
    | none =>
      rw [he] at h2
      obtain ⟨r, h3, h4⟩ := Option.bind_eq_some_iff.mp h2
      cases r with
      | some b =>
        refine ((ev_ev ce env a h1).and ((hpat _ h3).and (ev_ev t (b ++ env) v h4))).mp fun m hm => ?_
        rw [ev, hm.1, Option.bind_some, he]
        simp only [hm.2.1, Option.bind_some, hm.2.2]
      | none =>
        refine ((ev_ev ce env a h1).and ((hpat _ h3).and (ev_ev f env v h4))).mp fun m hm => ?_
        rw [ev, hm.1, Option.bind_some, he]
        simp only [hm.2.1, Option.bind_some, hm.2.2]
theorem evs_ev : ∀ (es : Exps) (env : Env) (vs : List Ty), evs U l env es = some vs → Ev fun m => evs U (c m) env es = some vs
  | .nil, env, vs, h => .of fun m => by simpa [evs] using h
  | .cons .spread e es, env, vs, h => by
    simp only [evs] at h ⊢
    obtain ⟨a, h1, h2⟩ := Option.bind_eq_some_iff.mp h
    obtain ⟨b, h3, h4⟩ := Option.bind_eq_some_iff.mp h2
    refine ((ev_ev e env a h1).and (evs_ev es env b h3)).mp fun m hm => ?_
    rw [hm.1, hm.2]; exact h4
  | .cons .elem e es, env, vs, h => by
    simp only [evs] at h ⊢
    obtain ⟨a, h1, h2⟩ := Option.bind_eq_some_iff.mp h
    obtain ⟨b, h3, h4⟩ := Option.map_eq_some_iff.mp h2
    refine ((ev_ev e env a h1).and (evs_ev es env b h3)).mp fun m hm => ?_
    rw [hm.1, hm.2, ← h4]; rfl
  | .cons (.member k o) e es, env, vs, h => by
    simp only [evs] at h ⊢
    obtain ⟨a, h1, h2⟩ := Option.bind_eq_some_iff.mp h
    obtain ⟨b, h3, h4⟩ := Option.map_eq_some_iff.mp h2
    refine ((ev_ev e env a h1).and (evs_ev es env b h3)).mp fun m hm => ?_
    rw [hm.1, hm.2, ← h4]; rfl
theorem evMems_ev : ∀ (es : Exps) (env : Env) (vs : List (Key × Bool × Ty)), evMems U l env es = some vs →
    Ev fun m => evMems U (c m) env es = some vs
  | .nil, env, vs, h => .of fun m => by simpa [evMems] using h
  | .cons .spread e es, env, vs, h => by simp [evMems] at h
  | .cons .elem e es, env, vs, h => by simp [evMems] at h
  | .cons (.member k o) e es, env, vs, h => by
    simp only [evMems] at h ⊢
    obtain ⟨a, h1, h2⟩ := Option.bind_eq_some_iff.mp h
    obtain ⟨b, h3, h4⟩ := Option.map_eq_some_iff.mp h2
    refine ((ev_ev e env a h1).and (evMems_ev es env b h3)).mp fun m hm => ?_
    rw [hm.1, hm.2, ← h4]; rfl
theorem mat_ev : ∀ (e : Exp) (env : Env) (v : Ty) (r : Option Env), mat U l env v e = some r →
    Ev fun m => mat U (c m) env v e = some r
  | .infer x, env, v, r, h => .of fun m => by simpa [mat] using h
  | .inferExt x e, env, v, r, h => by
    simp only [mat] at h ⊢
    obtain ⟨b, h3, h4⟩ := Option.map_eq_some_iff.mp h
    exact (ev_ev e env b h3).mp fun m hm => by rw [hm, ← h4]; rfl
  | .tup es, env, v, r, h => by
    cases v <;> simp only [mat] at h ⊢ <;> first | exact matTup_ev es env _ r h | exact .of fun m => h
  | .obj es, env, v, r, h => by
    cases v <;> simp only [mat] at h ⊢ <;> first | exact matObj_ev es env _ r h | exact .of fun m => h
  | .tmpl ps, env, v, r, h => .of fun m => by simpa [mat] using h
  | .lit _, _, _, _, h => by simp [mat] at h
  | .ref _ _, _, _, _, h => by simp [mat] at h
  | .idx _ _, _, _, _, h => by simp [mat] at h
  | .keyof _, _, _, _, h => by simp [mat] at h
  | .arr _, _, _, _, h => by simp [mat] at h
  | .union _, _, _, _, h => by simp [mat] at h
  | .cond _ _ _ _, _, _, _, h => by simp [mat] at h
  | .code _ _, _, _, _, h => by simp [mat] at h
theorem matTup_ev : ∀ (es : Exps) (env : Env) (vs : List Ty) (r : Option Env), matTup U l env vs es = some r →
    Ev fun m => matTup U (c m) env vs es = some r
  | .nil, env, vs, r, h => .of fun m => by cases vs <;> simpa [matTup] using h
  | .cons .spread e .nil, env, vs, r, h => by
    have go : (if isPattern e then mat U l env (.tup vs) e else (ev U l env e).map (test U (.tup vs))) = some r →
        Ev fun m => (if isPattern e then mat U (c m) env (.tup vs) e else (ev U (c m) env e).map (test U (.tup vs))) = some r := by
      intro h
      by_cases hp : isPattern e
      · simp only [hp, if_true] at h ⊢
        exact mat_ev e env _ r h
      · simp only [hp] at h ⊢
        obtain ⟨b, h3, h4⟩ := Option.map_eq_some_iff.mp h
        exact (ev_ev e env b h3).mp fun m hm => by rw [hm, ← h4]; rfl
    cases vs <;> simp only [matTup] at h ⊢ <;> exact go h
  | .cons .spread e (.cons hd e' es), env, vs, r, h => by cases vs <;> simp [matTup] at h
  | .cons .elem e es, env, [], r, h => .of fun m => by simpa [matTup] using h
  | .cons (.member k o) e es, env, [], r, h => .of fun m => by simpa [matTup] using h
  | .cons .elem e es, env, v :: vs, r, h => by
    simp only [matTup] at h ⊢
    obtain ⟨a, h1, h2⟩ := Option.bind_eq_some_iff.mp h
    have hpat : Ev fun m => (if isPattern e then mat U (c m) env v e else (ev U (c m) env e).map (test U v)) = some a := by
      by_cases hp : isPattern e
      · simp only [hp, if_true] at h1 ⊢
        exact mat_ev e env v a h1
      · simp only [hp] at h1 ⊢
        obtain ⟨b, h3, h4⟩ := Option.map_eq_some_iff.mp h1
        exact (ev_ev e env b h3).mp fun m hm => by rw [hm, ← h4]; rfl
    cases a with
    | none => exact hpat.mp fun m hm => by rw [hm]; exact h2
    | some b =>
      simp only at h2
      obtain ⟨r', h3, h4⟩ := Option.map_eq_some_iff.mp h2
      refine (hpat.and (matTup_ev es env vs r' h3)).mp fun m hm => ?_
      rw [hm.1]
      simp only [Option.bind_some, hm.2, Option.map_some, h4]
  | .cons (.member k o) e es, env, v :: vs, r, h => by
    simp only [matTup] at h ⊢
    obtain ⟨a, h1, h2⟩ := Option.bind_eq_some_iff.mp h
    have hpat : Ev fun m => (if isPattern e then mat U (c m) env v e else (ev U (c m) env e).map (test U v)) = some a := by
      by_cases hp : isPattern e
      · simp only [hp, if_true] at h1 ⊢
        exact mat_ev e env v a h1
      · simp only [hp] at h1 ⊢
        obtain ⟨b, h3, h4⟩ := Option.map_eq_some_iff.mp h1
        exact (ev_ev e env b h3).mp fun m hm => by rw [hm, ← h4]; rfl
    cases a with
    | none => exact hpat.mp fun m hm => by rw [hm]; exact h2
    | some b =>
      simp only at h2
      obtain ⟨r', h3, h4⟩ := Option.map_eq_some_iff.mp h2
      refine (hpat.and (matTup_ev es env vs r' h3)).mp fun m hm => ?_
      rw [hm.1]
      simp only [Option.bind_some, hm.2, Option.map_some, h4]
theorem matObj_ev : ∀ (es : Exps) (env : Env) (vs : List (Key × Bool × Ty)) (r : Option Env), matObj U l env vs es = some r →
    Ev fun m => matObj U (c m) env vs es = some r
  | .nil, env, vs, r, h => .of fun m => by simpa [matObj] using h
  | .cons .spread e es, env, vs, r, h => by simp [matObj] at h
  | .cons .elem e es, env, vs, r, h => by simp [matObj] at h
  | .cons (.member k o) e es, env, vs, r, h => by
    simp only [matObj] at h ⊢
    cases hk : member k vs with
    | none =>
      simp only [hk] at h ⊢
      by_cases ho : o
      · simp only [ho, if_true] at h ⊢
        exact matObj_ev es env vs r h
      · simp only [ho] at h ⊢
        exact .of fun m => h
    | some p =>
      obtain ⟨b, v⟩ := p
      cases b with
      | true => simp [hk] at h
      | false =>
        simp only [hk] at h ⊢
        obtain ⟨a, h1, h2⟩ := Option.bind_eq_some_iff.mp h
        have hpat : Ev fun m => (if isPattern e then mat U (c m) env v e else (ev U (c m) env e).map (test U v)) = some a := by
          by_cases hp : isPattern e
          · simp only [hp, if_true] at h1 ⊢
            exact mat_ev e env v a h1
          · simp only [hp] at h1 ⊢
            obtain ⟨b, h3, h4⟩ := Option.map_eq_some_iff.mp h1
            exact (ev_ev e env b h3).mp fun m hm => by rw [hm, ← h4]; rfl
        cases a with
        | none => exact hpat.mp fun m hm => by rw [hm]; exact h2
        | some b =>
          simp only at h2
          obtain ⟨r', h3, h4⟩ := Option.map_eq_some_iff.mp h2
          refine (hpat.and (matObj_ev es env vs r' h3)).mp fun m hm => ?_
          rw [hm.1]
          simp only [Option.bind_some, hm.2, Option.map_some, h4]
end
end

/-- More instantiations do not change a result. -/
theorem run_mono {P : Prog} : ∀ {n : Nat} {m : Mod} {x : Str} {args : List Ty} {v : Ty},
    run U P n m x args = some v → run U P (n + 1) m x args = some v
  | 0, _, _, _, _, h => by simp [run] at h
  | n + 1, m, x, args, v, h => by
    rw [run] at h ⊢
    cases hp : P m x with
    | none => simp [hp] at h
    | some d =>
      simp only [hp] at h ⊢
      by_cases hl : d.params.length = args.length
      · simp only [hl, if_true] at h ⊢
        have hs : Settles (fun _ => run U P (n + 1) d.mod) (run U P n d.mod) :=
          ⟨fun _ _ _ h => ⟨0, fun _ _ => run_mono h⟩⟩
        obtain ⟨k, hk⟩ := ev_ev hs d.body _ v h
        exact hk k (Nat.le_refl k)
      · simp [hl] at h

theorem run_le {P : Prog} {n k : Nat} {m : Mod} {x : Str} {args : List Ty} {v : Ty} (h : run U P n m x args = some v)
    (hk : n ≤ k) : run U P k m x args = some v := by
  induction hk with
  | refl => exact h
  | step _ ih => exact run_mono ih

open Classical in
/-- The result of an instantiation, with as many steps as it takes. -/
noncomputable def lim (U : User) (P : Prog) (m : Mod) : Call := fun x args =>
  if h : ∃ v n, run U P n m x args = some v then some h.choose else none

theorem lim_iff {P : Prog} {m : Mod} {x : Str} {args : List Ty} {v : Ty} :
    lim U P m x args = some v ↔ ∃ n, run U P n m x args = some v := by
  unfold lim
  by_cases h : ∃ v n, run U P n m x args = some v
  · rw [dif_pos h]
    obtain ⟨n, hn⟩ := h.choose_spec
    constructor
    · intro e
      cases e
      exact ⟨n, hn⟩
    · rintro ⟨k, hk⟩
      have h1 := run_le hn (Nat.le_max_left n k)
      have h2 := run_le hk (Nat.le_max_right n k)
      rw [h1] at h2
      exact h2
  · rw [dif_neg h]
    constructor
    · intro e; cases e
    · rintro ⟨k, hk⟩; exact absurd ⟨v, k, hk⟩ h

theorem settles_lim (P : Prog) (m : Mod) : Settles (fun n => run U P n m) (lim U P m) :=
  ⟨fun _ _ _ h => by
    obtain ⟨n, hn⟩ := lim_iff.mp h
    exact ⟨n, fun k hk => run_le hn hk⟩⟩

/-- An alias is its body. -/
theorem lim_of {P : Prog} {m : Mod} {x : Str} {args : List Ty} {d : Def} (hd : P m x = some d)
    (hl : d.params.length = args.length) :
    lim U P m x args = ev U (lim U P d.mod) (d.params.zip args) d.body := by
  have key : ∀ v, lim U P m x args = some v ↔ ev U (lim U P d.mod) (d.params.zip args) d.body = some v := by
    intro v
    rw [lim_iff]
    constructor
    · rintro ⟨n, hn⟩
      cases n with
      | zero => simp [run] at hn
      | succ n =>
        simp only [run, hd, hl, if_true] at hn
        have hs : Settles (fun _ => lim U P d.mod) (run U P n d.mod) :=
          ⟨fun _ _ _ h => ⟨0, fun _ _ => lim_iff.mpr ⟨n, h⟩⟩⟩
        obtain ⟨k, hk⟩ := ev_ev hs d.body _ v hn
        exact hk k (Nat.le_refl k)
    · intro h
      obtain ⟨n, hn⟩ := ev_ev (settles_lim P d.mod) d.body _ v h
      refine ⟨n + 1, ?_⟩
      simp only [run, hd, hl, if_true]
      exact hn n (Nat.le_refl n)
  cases h1 : lim U P m x args with
  | some v => exact ((key v).mp h1).symm
  | none =>
    cases h2 : ev U (lim U P d.mod) (d.params.zip args) d.body with
    | none => rfl
    | some v => rw [(key v).mpr h2] at h1; cases h1

/-- Two names for the same declaration. -/
theorem lim_alias {P : Prog} {m m' : Mod} {x x' : Str} (h : P m x = P m' x') : lim U P m x = lim U P m' x' := by
  have hr : ∀ n args, run U P n m x args = run U P n m' x' args := by
    intro n args
    cases n with
    | zero => rfl
    | succ n => simp only [run, h]
  funext args
  apply Option.ext
  intro v
  rw [lim_iff, lim_iff]
  simp only [hr]

end Verif.MiniTs
