import Verif.Spec.Tail
import Verif.Proofs.MiniTs

/-! # Programs whose recursion is by tail calls only

The aliases that a body mentions, in tail position (`tails`) and elsewhere (`inner`).  If
there is a rank that falls from a declaration to what it mentions inside and does not rise
to what it mentions in tail position, the rank bounds the number of pending instantiations. -/

namespace Verif.MiniTs
set_option linter.unusedSectionVars false
variable {U : User}

mutual
/-- The aliases and variables mentioned; the flag tells that there are no arguments. -/
def Exp.refs : Exp → List (Bool × Str)
  | .lit _ => []
  | .ref x .nil => [(true, x)]
  | .ref x (.cons h e es) => (false, x) :: Exps.refs (.cons h e es)
  | .idx t k => t.refs ++ k.refs
  | .keyof t => t.refs
  | .arr t => t.refs
  | .tup es => es.refs
  | .obj es => es.refs
  | .union es => es.refs
  | .tmpl es => es.refs
  | .infer _ => []
  | .inferExt _ c => c.refs
  | .cond c e t f => c.refs ++ (e.refs ++ (t.refs ++ f.refs))
  | .code _ _ => []
def Exps.refs : Exps → List (Bool × Str)
  | .nil => []
  | .cons _ e es => e.refs ++ es.refs
end

/-- What is mentioned outside tail position. -/
def Exp.inner : Exp → List (Bool × Str)
  | .ref _ .nil => []
  | .ref _ (.cons h e es) => Exps.refs (.cons h e es)
  | .cond c e t f => c.refs ++ (e.refs ++ (t.inner ++ f.inner))
  | .lit t => Exp.refs (.lit t)
  | .idx t k => Exp.refs (.idx t k)
  | .keyof t => Exp.refs (.keyof t)
  | .arr t => Exp.refs (.arr t)
  | .tup es => Exp.refs (.tup es)
  | .obj es => Exp.refs (.obj es)
  | .union es => Exp.refs (.union es)
  | .tmpl es => Exp.refs (.tmpl es)
  | .infer _ => []
  | .inferExt _ _ => []
  | .code _ _ => []

/-- What is mentioned in tail position. -/
def Exp.tails : Exp → List (Bool × Str)
  | .ref x .nil => [(true, x)]
  | .ref x (.cons _ _ _) => [(false, x)]
  | .cond _ _ t f => t.tails ++ f.tails
  | _ => []

section
variable {c c' : Call}

/-- What `c` finds of `qs`, `c'` finds as well. -/
def Agree (c c' : Call) (qs : List (Bool × Str)) : Prop :=
  ∀ q ∈ qs, ∀ as v, (q.1 = true → as = []) → c q.2 as = some v → c' q.2 as = some v

theorem Agree.left {qs rs : List (Bool × Str)} (h : Agree c c' (qs ++ rs)) : Agree c c' qs :=
  fun q hq => h q (List.mem_append_left _ hq)

theorem Agree.right {qs rs : List (Bool × Str)} (h : Agree c c' (qs ++ rs)) : Agree c c' rs :=
  fun q hq => h q (List.mem_append_right _ hq)

theorem Agree.tail {q : Bool × Str} {qs : List (Bool × Str)} (h : Agree c c' (q :: qs)) : Agree c c' qs :=
  fun q hq => h q (List.mem_cons_of_mem _ hq)

mutual
theorem ev_on : ∀ (e : Exp) (env : Env) (v : Ty), Agree c c' e.refs → ev U c env e = some v → ev U c' env e = some v
  | .lit t, env, v, _, h => by simpa [ev] using h
  | .ref x .nil, env, v, ha, h => by
    simp only [ev] at h ⊢
    cases hx : mget x env with
    | some u => rw [hx] at h; exact h
    | none => rw [hx] at h; exact ha (true, x) (by simp [Exp.refs]) [] v (fun _ => rfl) h
  | .ref x (.cons hd e es), env, v, ha, h => by
    rw [ev] at h ⊢
    obtain ⟨vs, h1, h2⟩ := Option.bind_eq_some_iff.mp h
    rw [Exp.refs] at ha
    rw [evs_on _ env vs ha.tail h1]
    exact ha (false, x) (by simp) vs v (fun h => by cases h) h2
  | .idx t k, env, v, ha, h => by
    rw [ev] at h ⊢
    obtain ⟨a, h1, h2⟩ := Option.bind_eq_some_iff.mp h
    obtain ⟨b, h3, h4⟩ := Option.bind_eq_some_iff.mp h2
    rw [Exp.refs] at ha
    rw [ev_on t env a ha.left h1, Option.bind_some, ev_on k env b ha.right h3]; exact h4
  | .keyof t, env, v, ha, h => by
    rw [ev] at h ⊢
    obtain ⟨a, h1, h2⟩ := Option.bind_eq_some_iff.mp h
    rw [Exp.refs] at ha
    rw [ev_on t env a ha h1]; exact h2
  | .arr t, env, v, ha, h => by
    rw [ev] at h ⊢
    obtain ⟨a, h1, h2⟩ := Option.map_eq_some_iff.mp h
    rw [Exp.refs] at ha
    rw [ev_on t env a ha h1, ← h2]; rfl
  | .tup es, env, v, ha, h => by
    rw [ev] at h ⊢
    obtain ⟨a, h1, h2⟩ := Option.map_eq_some_iff.mp h
    rw [Exp.refs] at ha
    rw [evs_on es env a ha h1, ← h2]; rfl
  | .obj es, env, v, ha, h => by
    rw [ev] at h ⊢
    obtain ⟨a, h1, h2⟩ := Option.map_eq_some_iff.mp h
    rw [Exp.refs] at ha
    rw [evMems_on es env a ha h1, ← h2]; rfl
  | .union es, env, v, ha, h => by
    rw [ev] at h ⊢
    obtain ⟨a, h1, h2⟩ := Option.map_eq_some_iff.mp h
    rw [Exp.refs] at ha
    rw [evs_on es env a ha h1, ← h2]; rfl
  | .tmpl es, env, v, ha, h => by
    rw [ev] at h ⊢
    obtain ⟨a, h1, h2⟩ := Option.bind_eq_some_iff.mp h
    rw [Exp.refs] at ha
    rw [evs_on es env a ha h1]; exact h2
  | .infer x, env, v, _, h => by simp [ev] at h
  | .inferExt x e, env, v, _, h => by simp [ev] at h
  | .code s xs, env, v, _, h => by simpa [ev] using h
  | .cond ce e t f, env, v, ha, h => by
    rw [ev] at h ⊢
    rw [Exp.refs] at ha
    obtain ⟨a, h1, h2⟩ := Option.bind_eq_some_iff.mp h
    rw [ev_on ce env a ha.left h1, Option.bind_some]
    cases he : early a (naked env ce) with
    | some r => rw [he] at h2; exact h2
    | none =>
      rw [he] at h2
      obtain ⟨r, h3, h4⟩ := Option.bind_eq_some_iff.mp h2
      simp only [pat_on e env a r ha.right.left h3, Option.bind_some]
      cases r with
      | some b => exact ev_on t (b ++ env) v ha.right.right.left h4
      | none => exact ev_on f env v ha.right.right.right h4
theorem pat_on : ∀ (e : Exp) (env : Env) (a : Ty) (r : Option Env), Agree c c' e.refs →
    (if isPattern e then mat U c env a e else (ev U c env e).map (test U a)) = some r →
    (if isPattern e then mat U c' env a e else (ev U c' env e).map (test U a)) = some r := by
  intro e env a r ha hr
  by_cases hp : isPattern e
  · simp only [hp, if_true] at hr ⊢
    exact mat_on e env a r ha hr
  · simp only [hp] at hr ⊢
    obtain ⟨b, h3, h4⟩ := Option.map_eq_some_iff.mp hr
    rw [ev_on e env b ha h3, ← h4]; rfl
theorem evs_on : ∀ (es : Exps) (env : Env) (vs : List Ty), Agree c c' es.refs → evs U c env es = some vs → evs U c' env es = some vs
  | .nil, env, vs, _, h => by simpa [evs] using h
  | .cons .spread e es, env, vs, ha, h => by
    simp only [evs] at h ⊢
    rw [Exps.refs] at ha
    obtain ⟨a, h1, h2⟩ := Option.bind_eq_some_iff.mp h
    obtain ⟨b, h3, h4⟩ := Option.bind_eq_some_iff.mp h2
    rw [ev_on e env a ha.left h1, evs_on es env b ha.right h3]; exact h4
  | .cons .elem e es, env, vs, ha, h => by
    simp only [evs] at h ⊢
    rw [Exps.refs] at ha
    obtain ⟨a, h1, h2⟩ := Option.bind_eq_some_iff.mp h
    obtain ⟨b, h3, h4⟩ := Option.map_eq_some_iff.mp h2
    rw [ev_on e env a ha.left h1, evs_on es env b ha.right h3, ← h4]; rfl
  | .cons (.member k o) e es, env, vs, ha, h => by
    simp only [evs] at h ⊢
    rw [Exps.refs] at ha
    obtain ⟨a, h1, h2⟩ := Option.bind_eq_some_iff.mp h
    obtain ⟨b, h3, h4⟩ := Option.map_eq_some_iff.mp h2
    rw [ev_on e env a ha.left h1, evs_on es env b ha.right h3, ← h4]; rfl
theorem evMems_on : ∀ (es : Exps) (env : Env) (vs : List (Key × Bool × Ty)), Agree c c' es.refs → evMems U c env es = some vs →
    evMems U c' env es = some vs
  | .nil, env, vs, _, h => by simpa [evMems] using h
  | .cons .spread e es, env, vs, _, h => by simp [evMems] at h
  | .cons .elem e es, env, vs, _, h => by simp [evMems] at h
  | .cons (.member k o) e es, env, vs, ha, h => by
    simp only [evMems] at h ⊢
    rw [Exps.refs] at ha
    obtain ⟨a, h1, h2⟩ := Option.bind_eq_some_iff.mp h
    obtain ⟨b, h3, h4⟩ := Option.map_eq_some_iff.mp h2
    rw [ev_on e env a ha.left h1, evMems_on es env b ha.right h3, ← h4]; rfl
theorem mat_on : ∀ (e : Exp) (env : Env) (v : Ty) (r : Option Env), Agree c c' e.refs → mat U c env v e = some r →
    mat U c' env v e = some r
  | .infer x, env, v, r, _, h => by simpa [mat] using h
  | .inferExt x e, env, v, r, ha, h => by
    simp only [mat] at h ⊢
    rw [Exp.refs] at ha
    obtain ⟨b, h3, h4⟩ := Option.map_eq_some_iff.mp h
    rw [ev_on e env b ha h3, ← h4]; rfl
  | .tup es, env, v, r, ha, h => by
    rw [Exp.refs] at ha
    cases v <;> simp only [mat] at h ⊢ <;> first | exact matTup_on es env _ r ha h | exact h
  | .obj es, env, v, r, ha, h => by
    rw [Exp.refs] at ha
    cases v <;> simp only [mat] at h ⊢ <;> first | exact matObj_on es env _ r ha h | exact h
  | .tmpl ps, env, v, r, _, h => by simpa [mat] using h
  | .lit _, _, _, _, _, h => by simp [mat] at h
  | .ref _ _, _, _, _, _, h => by simp [mat] at h
  | .idx _ _, _, _, _, _, h => by simp [mat] at h
  | .keyof _, _, _, _, _, h => by simp [mat] at h
  | .arr _, _, _, _, _, h => by simp [mat] at h
  | .union _, _, _, _, _, h => by simp [mat] at h
  | .cond _ _ _ _, _, _, _, _, h => by simp [mat] at h
  | .code _ _, _, _, _, _, h => by simp [mat] at h
theorem matTup_on : ∀ (es : Exps) (env : Env) (vs : List Ty) (r : Option Env), Agree c c' es.refs → matTup U c env vs es = some r →
    matTup U c' env vs es = some r
  | .nil, env, vs, r, _, h => by cases vs <;> simpa [matTup] using h
  | .cons .spread e .nil, env, vs, r, ha, h => by
    rw [Exps.refs] at ha
    cases vs <;> simp only [matTup] at h ⊢ <;> exact pat_on e env _ r ha.left h
  | .cons .spread e (.cons hd e' es), env, vs, r, _, h => by cases vs <;> simp [matTup] at h
  | .cons .elem e es, env, [], r, _, h => by simpa [matTup] using h
  | .cons (.member k o) e es, env, [], r, _, h => by simpa [matTup] using h
  | .cons .elem e es, env, v :: vs, r, ha, h => by
    simp only [matTup] at h ⊢
    rw [Exps.refs] at ha
    obtain ⟨a, h1, h2⟩ := Option.bind_eq_some_iff.mp h
    rw [pat_on e env v a ha.left h1]
    cases a with
    | none => exact h2
    | some b =>
      simp only at h2
      obtain ⟨r', h3, h4⟩ := Option.map_eq_some_iff.mp h2
      simp only [Option.bind_some, matTup_on es env vs r' ha.right h3, Option.map_some, h4]
  | .cons (.member k o) e es, env, v :: vs, r, ha, h => by
    simp only [matTup] at h ⊢
    rw [Exps.refs] at ha
    obtain ⟨a, h1, h2⟩ := Option.bind_eq_some_iff.mp h
    rw [pat_on e env v a ha.left h1]
    cases a with
    | none => exact h2
    | some b =>
      simp only at h2
      obtain ⟨r', h3, h4⟩ := Option.map_eq_some_iff.mp h2
      simp only [Option.bind_some, matTup_on es env vs r' ha.right h3, Option.map_some, h4]
theorem matObj_on : ∀ (es : Exps) (env : Env) (vs : List (Key × Bool × Ty)) (r : Option Env), Agree c c' es.refs →
    matObj U c env vs es = some r → matObj U c' env vs es = some r
  | .nil, env, vs, r, _, h => by simpa [matObj] using h
  | .cons .spread e es, env, vs, r, _, h => by simp [matObj] at h
  | .cons .elem e es, env, vs, r, _, h => by simp [matObj] at h
  | .cons (.member k o) e es, env, vs, r, ha, h => by
    simp only [matObj] at h ⊢
    rw [Exps.refs] at ha
    cases hk : member k vs with
    | none =>
      simp only [hk] at h ⊢
      by_cases ho : o
      · simp only [ho, if_true] at h ⊢
        exact matObj_on es env vs r ha.right h
      · simp only [ho] at h ⊢
        exact h
    | some p =>
      obtain ⟨b, v⟩ := p
      cases b with
      | true => simp [hk] at h
      | false =>
        simp only [hk] at h ⊢
        obtain ⟨a, h1, h2⟩ := Option.bind_eq_some_iff.mp h
        rw [pat_on e env v a ha.left h1]
        cases a with
        | none => exact h2
        | some b =>
          simp only at h2
          obtain ⟨r', h3, h4⟩ := Option.map_eq_some_iff.mp h2
          simp only [Option.bind_some, matObj_on es env vs r' ha.right h3, Option.map_some, h4]
end

/-- What a body comes to in tail position, in terms of its value. -/
def Out.Is (c : Call) (qs : List (Bool × Str)) (v : Ty) : Out → Prop
  | .done t => t = v
  | .tail x as => ∃ b, (b, x) ∈ qs ∧ (b = true → as = []) ∧ c x as = some v

theorem Out.Is.mono {qs rs : List (Bool × Str)} {v : Ty} {o : Out} (h : o.Is c qs v) (hs : ∀ q ∈ qs, q ∈ rs) : o.Is c rs v := by
  cases o with
  | done t => exact h
  | tail x as =>
    obtain ⟨b, h1, h2⟩ := h
    exact ⟨b, hs _ h1, h2⟩

theorem evTail_of : ∀ (e : Exp) (env : Env) (v : Ty), Agree c c' e.inner → ev U c env e = some v →
    ∃ o, evTail U c' env e = some o ∧ o.Is c e.tails v
  | .lit t, env, v, _, h => ⟨.done t, rfl, by simpa [ev, Out.Is] using h⟩
  | .ref x .nil, env, v, ha, h => by
    simp only [ev, evTail] at h ⊢
    cases hx : mget x env with
    | some u => rw [hx] at h; exact ⟨_, rfl, Option.some.inj h⟩
    | none => rw [hx] at h; exact ⟨_, rfl, true, by simp [Exp.tails], fun _ => rfl, h⟩
  | .ref x (.cons hd e es), env, v, ha, h => by
    rw [ev] at h
    obtain ⟨vs, h1, h2⟩ := Option.bind_eq_some_iff.mp h
    rw [Exp.inner] at ha
    rw [evTail, evs_on _ env vs ha h1]
    exact ⟨_, rfl, false, by simp [Exp.tails], fun h => (by cases h), h2⟩
  | .cond ce e t f, env, v, ha, h => by
    rw [ev] at h
    rw [evTail]
    rw [Exp.inner] at ha
    obtain ⟨a, h1, h2⟩ := Option.bind_eq_some_iff.mp h
    rw [ev_on ce env a ha.left h1, Option.bind_some]
    cases he : early a (naked env ce) with
    | some r =>
      rw [he] at h2
      refine ⟨.done v, ?_, rfl⟩
      simp only at h2 ⊢
      rw [h2]; rfl
    | none =>
      rw [he] at h2
      obtain ⟨r, h3, h4⟩ := Option.bind_eq_some_iff.mp h2
      simp only [pat_on e env a r ha.right.left h3, Option.bind_some]
      cases r with
      | some b =>
        obtain ⟨o, h5, h6⟩ := evTail_of t (b ++ env) v ha.right.right.left h4
        exact ⟨o, h5, h6.mono fun q hq => by rw [Exp.tails]; exact List.mem_append_left _ hq⟩
      | none =>
        obtain ⟨o, h5, h6⟩ := evTail_of f env v ha.right.right.right h4
        exact ⟨o, h5, h6.mono fun q hq => by rw [Exp.tails]; exact List.mem_append_right _ hq⟩
  | .idx t k, env, v, ha, h => ⟨.done v, by rw [evTail, ev_on _ env v (by simpa [Exp.inner] using ha) h]; rfl, rfl⟩
  | .keyof t, env, v, ha, h => ⟨.done v, by rw [evTail, ev_on _ env v (by simpa [Exp.inner] using ha) h]; rfl, rfl⟩
  | .arr t, env, v, ha, h => ⟨.done v, by rw [evTail, ev_on _ env v (by simpa [Exp.inner] using ha) h]; rfl, rfl⟩
  | .tup t, env, v, ha, h => ⟨.done v, by rw [evTail, ev_on _ env v (by simpa [Exp.inner] using ha) h]; rfl, rfl⟩
  | .obj t, env, v, ha, h => ⟨.done v, by rw [evTail, ev_on _ env v (by simpa [Exp.inner] using ha) h]; rfl, rfl⟩
  | .union t, env, v, ha, h => ⟨.done v, by rw [evTail, ev_on _ env v (by simpa [Exp.inner] using ha) h]; rfl, rfl⟩
  | .tmpl t, env, v, ha, h => ⟨.done v, by rw [evTail, ev_on _ env v (by simpa [Exp.inner] using ha) h]; rfl, rfl⟩
  | .infer x, env, v, _, h => by simp [ev] at h
  | .inferExt x e, env, v, _, h => by simp [ev] at h
  | .code s xs, env, v, _, h => ⟨.done v, by simp only [ev] at h; simp [evTail, ev, h], rfl⟩

/-- The value of a body from what it comes to in tail position. -/
theorem ev_of_tail (hcc : ∀ x as v, c x as = some v → c' x as = some v) :
    ∀ (e : Exp) (env : Env) (o : Out) (v : Ty), evTail U c env e = some o →
    (match o with | .done t => t = v | .tail x as => c' x as = some v) → ev U c' env e = some v := by
  have hag : ∀ qs, Agree c c' qs := fun qs q _ as v _ h => hcc _ _ _ h
  have hdone : ∀ (e : Exp) (env : Env) (o : Out) (v : Ty), (ev U c env e).map Out.done = some o →
      (match o with | .done t => t = v | .tail x as => c' x as = some v) → ev U c' env e = some v := by
    intro e env o v h ho
    obtain ⟨a, h1, h2⟩ := Option.map_eq_some_iff.mp h
    subst h2
    simp only at ho
    subst ho
    exact ev_on e env a (hag _) h1
  intro e
  induction e using Exp.rec (motive_2 := fun _ => True) with
  | lit t =>
    intro env o v h ho
    rw [evTail] at h
    cases h
    simpa [ev] using ho
  | ref x es _ =>
    intro env o v h ho
    cases es with
    | nil =>
      rw [evTail] at h
      rw [ev]
      cases hx : mget x env with
      | some u => rw [hx] at h; cases h; simpa using ho
      | none => rw [hx] at h; cases h; exact ho
    | cons hd e es =>
      rw [evTail] at h
      obtain ⟨vs, h1, h2⟩ := Option.map_eq_some_iff.mp h
      subst h2
      rw [ev, evs_on _ env vs (hag _) h1]
      exact ho
  | cond ce e t f _ _ iht ihf =>
    intro env o v h ho
    rw [evTail] at h
    obtain ⟨a, h1, h2⟩ := Option.bind_eq_some_iff.mp h
    rw [ev, ev_on ce env a (hag _) h1, Option.bind_some]
    cases he : early a (naked env ce) with
    | some r =>
      rw [he] at h2
      obtain ⟨u, h3, h4⟩ := Option.map_eq_some_iff.mp h2
      subst h4
      simp only at ho
      subst ho
      exact h3
    | none =>
      rw [he] at h2
      obtain ⟨r, h3, h4⟩ := Option.bind_eq_some_iff.mp h2
      simp only [pat_on e env a r (hag _) h3, Option.bind_some]
      cases r with
      | some b => exact iht (b ++ env) o v h4 ho
      | none => exact ihf env o v h4 ho
  | idx | keyof | arr | tup | obj | union | tmpl | code => intro env o v h ho; rw [evTail] at h; exact hdone _ env o v h ho
  | infer | inferExt => intro env o v h; simp [evTail] at h
  | nil => trivial
  | cons => trivial
end

/-- The rank falls to what a declaration mentions inside and does not rise to what it mentions in tail position. -/
structure Ranked (P : Prog) (rank : Mod → Str → Nat) : Prop where
  inner : ∀ m x d, P m x = some d → ∀ q ∈ d.body.inner, ∀ d', P d.mod q.2 = some d' → (q.1 = true → d'.params = []) →
    rank d.mod q.2 < rank m x
  tails : ∀ m x d, P m x = some d → ∀ q ∈ d.body.tails, ∀ d', P d.mod q.2 = some d' → (q.1 = true → d'.params = []) →
    rank d.mod q.2 ≤ rank m x

theorem run_decl {P : Prog} {n : Nat} {m : Mod} {x : Str} {as : List Ty} {v : Ty} (h : run U P n m x as = some v) :
    ∃ d, P m x = some d ∧ d.params.length = as.length := by
  cases n with
  | zero => simp [run] at h
  | succ n =>
    rw [run] at h
    cases hp : P m x with
    | none => simp [hp] at h
    | some d =>
      simp only [hp] at h
      by_cases hl : d.params.length = as.length
      · exact ⟨d, rfl, hl⟩
      · simp [hl] at h

theorem params_nil {d : Def} {as : List Ty} (hl : d.params.length = as.length) (h : as = []) : d.params = [] := by
  subst h
  exact List.eq_nil_of_length_eq_zero hl

theorem chain_of_run {P : Prog} {rank : Mod → Str → Nat} (hR : Ranked P rank) (N : Nat) :
    ∀ (n k j : Nat) (m : Mod) (x : Str) (as : List Ty) (v : Ty), n ≤ j → j ≤ N → rank m x ≤ k →
      run U P n m x as = some v → chain U P (runTail U P N k) j m x as = some v
  | 0, _, _, _, _, _, _, _, _, _, h => by simp [run] at h
  | n + 1, k, 0, _, _, _, _, hj, _, _, _ => by omega
  | n + 1, k, j + 1, m, x, as, v, hj, hN, hk, h => by
    obtain ⟨d, hd, hl⟩ := run_decl h
    simp only [run, hd, hl, if_true] at h
    have hag : Agree (run U P n d.mod) (runTail U P N k d.mod) d.body.inner := by
      intro q hq as' w hnil hw
      obtain ⟨d', hd', hl'⟩ := run_decl hw
      have hr := hR.inner m x d hd q hq d' hd' fun hb => params_nil hl' (hnil hb)
      cases k with
      | zero => omega
      | succ k => exact chain_of_run hR N n k N d.mod q.2 as' w (by omega) (Nat.le_refl N) (by omega) hw
    obtain ⟨o, h1, h2⟩ := evTail_of d.body _ v hag h
    rw [chain, hd]
    simp only [hl, if_true, h1]
    cases o with
    | done t => exact congrArg some h2
    | tail y bs =>
      obtain ⟨b, h3, h4, h5⟩ := h2
      obtain ⟨d', hd', hl'⟩ := run_decl h5
      have hr := hR.tails m x d hd (b, y) h3 d' hd' fun hb => params_nil hl' (h4 hb)
      exact chain_of_run hR N n k j d.mod y bs v (by omega) (by omega) (by simp only at hr; omega) h5

/-- The rank bounds the number of pending instantiations. -/
theorem runTail_of_run {P : Prog} {rank : Mod → Str → Nat} (hR : Ranked P rank) {n k N : Nat} {m : Mod} {x : Str} {as : List Ty}
    {v : Ty} (hk : rank m x < k) (hN : n ≤ N) (h : run U P n m x as = some v) : runTail U P N k m x as = some v := by
  cases k with
  | zero => omega
  | succ k => exact chain_of_run hR N n k N m x as v hN (Nat.le_refl N) (by omega) h

theorem run_of_chain {P : Prog} {inner : Mod → Call} {M : Nat}
    (hi : ∀ m x as v, inner m x as = some v → run U P M m x as = some v) :
    ∀ (j : Nat) (m : Mod) (x : Str) (as : List Ty) (v : Ty), chain U P inner j m x as = some v → run U P (M + j) m x as = some v
  | 0, _, _, _, _, h => by simp [chain] at h
  | j + 1, m, x, as, v, h => by
    rw [chain] at h
    cases hd : P m x with
    | none => simp [hd] at h
    | some d =>
      simp only [hd] at h
      by_cases hl : d.params.length = as.length
      · simp only [hl, if_true] at h
        rw [← Nat.add_assoc, run, hd]
        simp only [hl, if_true]
        cases ho : evTail U (inner d.mod) (d.params.zip as) d.body with
        | none => simp [ho] at h
        | some o =>
          rw [ho] at h
          refine ev_of_tail (fun x as v hv => run_le (hi _ _ _ _ hv) (Nat.le_add_right M j)) d.body _ o v ho ?_
          cases o with
          | done t => exact Option.some.inj h
          | tail y bs => exact run_of_chain hi j d.mod y bs v h
      · simp [hl] at h

/-- Tail calls change no result. -/
theorem run_of_runTail {P : Prog} {N : Nat} : ∀ {k : Nat} {m : Mod} {x : Str} {as : List Ty} {v : Ty},
    runTail U P N k m x as = some v → run U P (k * N) m x as = some v
  | 0, _, _, _, _, h => by simp [runTail] at h
  | k + 1, m, x, as, v, h => by
    rw [runTail] at h
    have := run_of_chain (fun m x as v h => run_of_runTail h) N m x as v h
    rwa [Nat.succ_mul]

end Verif.MiniTs
