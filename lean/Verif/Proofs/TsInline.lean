import Verif.Proofs.MiniTs
import Verif.Proofs.TsUserOk
import Verif.Proofs.TsFilesParse
import Verif.Spec.TsGenFile

/-! # Evaluation with other mapping code -/

namespace Verif.MiniTs
open Verif.Spec (codeFree codeFrees)

/-- Equal assignability for equal declared types. -/
theorem accepts_user {U U' : User} (h : U.has = U'.has) (t v : Ty) : accepts U t v = accepts U' t v := by
  apply Bool.eq_iff_iff.mpr
  exact ⟨Props.accepts_mono (fun k v hk => by rw [← h]; exact hk) t v, Props.accepts_mono (fun k v hk => by rw [h]; exact hk) t v⟩

theorem test_user {U U' : User} (h : U.has = U'.has) (v t : Ty) : test U v t = test U' v t := by
  simp only [test, accepts_user h]

section
variable {U U' : User} (h : U.has = U'.has) (c : Call)
include h

mutual
theorem ev_user : ∀ (e : Exp) (env : Env), codeFree e = true → ev U c env e = ev U' c env e
  | .lit t, env, hf => by simp [ev]
  | .ref x .nil, env, hf => by simp [ev]
  | .ref x (.cons hd e es), env, hf => by
    simp only [codeFree] at hf
    simp only [ev, evs_user (.cons hd e es) env hf]
  | .idx t k, env, hf => by
    simp only [codeFree, Bool.and_eq_true] at hf
    simp only [ev, ev_user t env hf.1, ev_user k env hf.2]
  | .keyof t, env, hf => by
    simp only [codeFree] at hf
    simp only [ev, ev_user t env hf]
  | .arr t, env, hf => by
    simp only [codeFree] at hf
    simp only [ev, ev_user t env hf]
  | .tup es, env, hf => by
    simp only [codeFree] at hf
    simp only [ev, evs_user es env hf]
  | .obj es, env, hf => by
    simp only [codeFree] at hf
    simp only [ev, evMems_user es env hf]
  | .union es, env, hf => by
    simp only [codeFree] at hf
    simp only [ev, evs_user es env hf]
  | .tmpl es, env, hf => by
    simp only [codeFree] at hf
    simp only [ev, evs_user es env hf]
  | .infer x, env, hf => by simp [ev]
  | .inferExt x e, env, hf => by simp [ev]
  | .code s xs, env, hf => by simp [codeFree] at hf
  | .cond c0 e t f, env, hf => by
    simp only [codeFree, Bool.and_eq_true] at hf
    simp only [ev, ev_user c0 env hf.1.1.1]
    congr 1
    funext v
    cases early v (naked env c0) with
    | some r => rfl
    | none =>
      simp only []
      have ht : test U v = test U' v := funext (test_user h v)
      rw [mat_user e env v hf.1.1.2, ev_user e env hf.1.1.2, ht]
      congr 1
      funext r
      cases r with
      | none => exact ev_user f env hf.2
      | some b => exact ev_user t (b ++ env) hf.1.2
theorem evs_user : ∀ (es : Exps) (env : Env), codeFrees es = true → evs U c env es = evs U' c env es
  | .nil, env, hf => by simp [evs]
  | .cons .spread e es, env, hf => by
    simp only [codeFrees, Bool.and_eq_true] at hf
    simp only [evs, ev_user e env hf.1, evs_user es env hf.2]
  | .cons .elem e es, env, hf => by
    simp only [codeFrees, Bool.and_eq_true] at hf
    simp only [evs, ev_user e env hf.1, evs_user es env hf.2]
  | .cons (.member k o) e es, env, hf => by
    simp only [codeFrees, Bool.and_eq_true] at hf
    simp only [evs, ev_user e env hf.1, evs_user es env hf.2]
theorem evMems_user : ∀ (es : Exps) (env : Env), codeFrees es = true → evMems U c env es = evMems U' c env es
  | .nil, env, hf => by simp [evMems]
  | .cons .spread e es, env, hf => by simp [evMems]
  | .cons .elem e es, env, hf => by simp [evMems]
  | .cons (.member k o) e es, env, hf => by
    simp only [codeFrees, Bool.and_eq_true] at hf
    simp only [evMems, ev_user e env hf.1, evMems_user es env hf.2]
theorem mat_user : ∀ (e : Exp) (env : Env) (v : Ty), codeFree e = true → mat U c env v e = mat U' c env v e
  | .lit t, env, v, hf => by simp [mat]
  | .ref x es, env, v, hf => by simp [mat]
  | .idx t k, env, v, hf => by simp [mat]
  | .keyof t, env, v, hf => by simp [mat]
  | .arr t, env, v, hf => by simp [mat]
  | .tup es, env, v, hf => by
    simp only [codeFree] at hf
    cases v <;> simp only [mat]
    exact matTup_user es env _ hf
  | .obj es, env, v, hf => by
    simp only [codeFree] at hf
    cases v <;> simp only [mat]
    exact matObj_user es env _ hf
  | .union es, env, v, hf => by simp [mat]
  | .tmpl es, env, v, hf => by simp [mat]
  | .infer x, env, v, hf => by simp [mat]
  | .inferExt x e, env, v, hf => by
    simp only [codeFree] at hf
    simp only [mat, ev_user e env hf, test_user h]
  | .code s xs, env, v, hf => by simp [mat]
  | .cond c0 e t f, env, v, hf => by simp [mat]
theorem matTup_user : ∀ (es : Exps) (env : Env) (vs : List Ty), codeFrees es = true → matTup U c env vs es = matTup U' c env vs es
  | .nil, env, vs, hf => by cases vs <;> simp [matTup]
  | .cons .spread e .nil, env, vs, hf => by
    simp only [codeFrees, Bool.and_true] at hf
    have ht : test U (.tup vs) = test U' (.tup vs) := funext (test_user h _)
    cases vs <;> simp only [matTup, mat_user e env _ hf, ev_user e env hf, ht]
  | .cons .spread e (.cons _ _ _), env, vs, hf => by cases vs <;> simp [matTup]
  | .cons .elem e es, env, vs, hf => by
    simp only [codeFrees, Bool.and_eq_true] at hf
    cases vs with
    | nil => simp [matTup]
    | cons v vs =>
      have ht : test U v = test U' v := funext (test_user h _)
      simp only [matTup, mat_user e env v hf.1, ev_user e env hf.1, ht, matTup_user es env vs hf.2]
  | .cons (.member k o) e es, env, vs, hf => by
    simp only [codeFrees, Bool.and_eq_true] at hf
    cases vs with
    | nil => simp [matTup]
    | cons v vs =>
      have ht : test U v = test U' v := funext (test_user h _)
      simp only [matTup, mat_user e env v hf.1, ev_user e env hf.1, ht, matTup_user es env vs hf.2]
theorem matObj_user : ∀ (es : Exps) (env : Env) (vs : List (Key × Bool × Ty)), codeFrees es = true →
    matObj U c env vs es = matObj U' c env vs es
  | .nil, env, vs, hf => by simp [matObj]
  | .cons .spread e es, env, vs, hf => by simp [matObj]
  | .cons .elem e es, env, vs, hf => by simp [matObj]
  | .cons (.member k o) e es, env, vs, hf => by
    simp only [codeFrees, Bool.and_eq_true] at hf
    simp only [matObj]
    cases member k vs with
    | none => simp only [matObj_user es env vs hf.2]
    | some m =>
      obtain ⟨b, v⟩ := m
      cases b with
      | true => rfl
      | false =>
        have ht : test U v = test U' v := funext (test_user h _)
        simp only [mat_user e env v hf.1, ev_user e env hf.1, ht, matObj_user es env vs hf.2]
end
end

/-! ## Mapping code in place -/

/-- What a name without arguments is. -/
def lookup (c : Call) (env : Env) (x : Str) : Option Ty :=
  match mget x env with
  | some v => some v
  | none => c x []

section
variable {U U' : User} {c c' : Call} {env env' : Env} {known : Str → Prop}
  (h : ∀ x, known x → lookup c env x = lookup c' env' x)
include h

mutual
theorem ev_data : ∀ e : Exp, Spec.dataExp known e → ev U c env e = ev U' c' env' e
  | .lit t, hd => by simp [ev]
  | .ref x .nil, hd => by
    have := h x (by simpa [Spec.dataExp] using hd)
    rw [ev, ev]
    exact this
  | .ref x (.cons _ _ _), hd => by simp [Spec.dataExp] at hd
  | .idx t k, hd => by
    simp only [Spec.dataExp] at hd
    simp only [ev, ev_data t hd.1, ev_data k hd.2]
  | .keyof t, hd => by
    simp only [Spec.dataExp] at hd
    simp only [ev, ev_data t hd]
  | .arr t, hd => by
    simp only [Spec.dataExp] at hd
    simp only [ev, ev_data t hd]
  | .tup es, hd => by
    simp only [Spec.dataExp] at hd
    simp only [ev, evs_data es hd]
  | .obj es, hd => by
    simp only [Spec.dataExp] at hd
    simp only [ev, evMems_data es hd]
  | .union es, hd => by
    simp only [Spec.dataExp] at hd
    simp only [ev, evs_data es hd]
  | .tmpl es, hd => by
    simp only [Spec.dataExp] at hd
    simp only [ev, evs_data es hd]
  | .infer x, hd => by simp [ev]
  | .inferExt x e, hd => by simp [ev]
  | .code s xs, hd => by simp [Spec.dataExp] at hd
  | .cond c0 e t f, hd => by simp [Spec.dataExp] at hd
theorem evs_data : ∀ es : Exps, Spec.dataExps known es → evs U c env es = evs U' c' env' es
  | .nil, hd => by simp [evs]
  | .cons .spread e es, hd => by
    simp only [Spec.dataExps] at hd
    simp only [evs, ev_data e hd.1, evs_data es hd.2]
  | .cons .elem e es, hd => by
    simp only [Spec.dataExps] at hd
    simp only [evs, ev_data e hd.1, evs_data es hd.2]
  | .cons (.member k o) e es, hd => by
    simp only [Spec.dataExps] at hd
    simp only [evs, ev_data e hd.1, evs_data es hd.2]
theorem evMems_data : ∀ es : Exps, Spec.dataExps known es → evMems U c env es = evMems U' c' env' es
  | .nil, hd => by simp [evMems]
  | .cons .spread e es, hd => by simp [evMems]
  | .cons .elem e es, hd => by simp [evMems]
  | .cons (.member k o) e es, hd => by
    simp only [Spec.dataExps] at hd
    simp only [evMems, ev_data e hd.1, evMems_data es hd.2]
end
end

theorem ev_cond_congr {U U' : User} (h : U.has = U'.has) {c : Call} {env : Env} {c0 e t t' f : Exp} (hc : codeFree c0 = true)
    (he : codeFree e = true) (hf : codeFree f = true) (K : List Str)
    (hk : ∀ v b, (if isPattern e then mat U' c env v e else (ev U' c env e).map (test U' v)) = some (some b) → b.map (·.1) = K)
    (ht : ∀ b : Env, b.map (·.1) = K → ev U c (b ++ env) t = ev U' c (b ++ env) t') :
    ev U c env (.cond c0 e t f) = ev U' c env (.cond c0 e t' f) := by
  simp only [ev, ev_user h c c0 env hc]
  congr 1
  funext v
  cases early v (naked env c0) with
  | some r => rfl
  | none =>
    have htest : test U v = test U' v := funext (test_user h v)
    simp only [mat_user h c e env v he, ev_user h c e env he, htest]
    cases hr : (if isPattern e then mat U' c env v e else (ev U' c env e).map (test U' v)) with
    | none => rfl
    | some r =>
      simp only [Option.bind_some]
      cases r with
      | none => exact ev_user h c f env hf
      | some b => exact ht b (hk v b hr)

theorem test_keys {U : User} {v t : Ty} {b : Env} (h : test U v t = some b) : b = [] := by
  unfold test at h
  split at h
  · exact (Option.some.inj h).symm
  · cases h

theorem obj2_keys {U : User} {c : Call} {env : Env} {vs : List (Key × Bool × Ty)} {k k' : Key} {e e' : Exp} {b : Env}
    (h : matObj U c env vs (.cons (.member k false) e (.cons (.member k' false) e' .nil)) = some (some b)) :
    ∃ b1 b2 : Env, (∃ v, (if isPattern e then mat U c env v e else (ev U c env e).map (test U v)) = some (some b1)) ∧
      (∃ v, (if isPattern e' then mat U c env v e' else (ev U c env e').map (test U v)) = some (some b2)) ∧ b = b1 ++ b2 := by
  have step : ∀ {k e es b}, matObj U c env vs (.cons (.member k false) e es) = some (some b) →
      ∃ b1 b2 : Env, (∃ v, (if isPattern e then mat U c env v e else (ev U c env e).map (test U v)) = some (some b1)) ∧
        matObj U c env vs es = some (some b2) ∧ b = b1 ++ b2 := by
    intro k e es b h
    rw [matObj] at h
    cases hm : member k vs with
    | none => simp [hm] at h
    | some p =>
      obtain ⟨o, v⟩ := p
      cases o with
      | true => simp [hm] at h
      | false =>
        simp only [hm] at h
        obtain ⟨r, h1, h2⟩ := Option.bind_eq_some_iff.mp h
        cases r with
        | none => simp at h2
        | some b1 =>
          obtain ⟨r, h3, h4⟩ := Option.map_eq_some_iff.mp h2
          obtain ⟨b2, rfl, rfl⟩ := Option.map_eq_some_iff.mp h4
          exact ⟨b1, b2, ⟨v, h1⟩, h3, rfl⟩
  obtain ⟨b1, b2, h1, h2, rfl⟩ := step h
  obtain ⟨b3, b4, h3, h4, rfl⟩ := step h2
  simp only [matObj, Option.some.injEq] at h4
  subst h4
  exact ⟨b1, b3, h1, h3, by simp⟩

theorem cond_keys {U : User} {c : Call} {env : Env} (q : ParseGen.Cond) (v : Ty) (b : Env)
    (h : (if isPattern (condExp q).2 then mat U c env v (condExp q).2 else (ev U c env (condExp q).2).map (test U v)) = some (some b)) :
    b.map (·.1) = bound [q] := by
  have hext : ∀ {v : Ty} {n : Str} {e : Exp} {b : Env}, mat U c env v (.inferExt n e) = some (some b) → b.map (·.1) = [n] := by
    intro v n e b hb
    rw [mat] at hb
    obtain ⟨t, _, h2⟩ := Option.map_eq_some_iff.mp hb
    obtain ⟨b', _, h4⟩ := Option.map_eq_some_iff.mp h2
    rw [← h4]; rfl
  cases q with
  | nonTerm n k =>
    simp only [condExp, isPattern, if_true] at h
    cases v <;> simp only [mat] at h <;> try cases h
    obtain ⟨b1, b2, ⟨_, h1⟩, ⟨_, h2⟩, h3⟩ := obj2_keys h
    simp only [isPattern, if_true] at h2
    rw [h3, List.map_append, hext h2]
    rw [if_neg (by simp [isPattern])] at h1
    obtain ⟨t, _, h4⟩ := Option.map_eq_some_iff.mp h1
    rw [test_keys h4]; rfl
  | isToken n =>
    simp only [condExp, isPattern, if_true] at h
    cases v <;> simp only [mat] at h <;> try cases h
    obtain ⟨b1, b2, ⟨_, h1⟩, ⟨_, h2⟩, h3⟩ := obj2_keys h
    rw [if_neg (by simp [isPattern])] at h1 h2
    obtain ⟨t, _, h4⟩ := Option.map_eq_some_iff.mp h1
    obtain ⟨t, _, h5⟩ := Option.map_eq_some_iff.mp h2
    rw [h3, test_keys h4, test_keys h5]; rfl
  | lit n s => simp only [condExp, isPattern, if_true] at h; exact hext h
  | text n => simp only [condExp, isPattern, if_true] at h; exact hext h

theorem matTup_keys {U : User} {c : Call} {env : Env} : ∀ (xs : List Str) (vs : List Ty) (b : Env),
    matTup U c env vs (inferExps xs) = some (some b) → b.map (·.1) = xs
  | [], vs, b, h => by
    cases vs <;> simp [inferExps, matTup] at h
    subst h; rfl
  | x :: xs, [], b, h => by simp [inferExps, matTup] at h
  | x :: xs, v :: vs, b, h => by
    simp only [inferExps, matTup, isPattern, if_true, mat, Option.bind_some] at h
    cases hm : matTup U c env vs (inferExps xs) with
    | none => simp [hm] at h
    | some r =>
      cases r with
      | none => simp [hm] at h
      | some b' =>
        simp only [hm, Option.map_some, Option.some.injEq] at h
        rw [← h, List.map_append, matTup_keys xs vs b' hm]
        rfl

theorem condExp_free (q : ParseGen.Cond) : codeFree (condExp q).1 = true ∧ codeFree (condExp q).2 = true := by
  cases q <;> exact ⟨rfl, rfl⟩

theorem conds_congr {U U' : User} (h : U.has = U'.has) {c : Call} {r r' : Exp} : ∀ (cs : List ParseGen.Cond) (es : List ParseGen.Msg)
    (env : Env), (∀ b : Env, (∀ x, x ∈ b.map (·.1) ↔ x ∈ bound cs) → ev U c (b ++ env) r = ev U' c (b ++ env) r') →
    ev U c env (condsExp r cs es) = ev U' c env (condsExp r' cs es)
  | [], es, env, hr => by
    rw [condsExp, condsExp]
    exact hr [] (by simp [bound])
  | q :: cs, es, env, hr => by
    rw [condsExp, condsExp]
    refine ev_cond_congr h (condExp_free q).1 (condExp_free q).2 rfl (bound [q]) (fun v b hb => cond_keys q v b hb) fun b hb => ?_
    refine conds_congr h cs _ _ fun b' hb' => ?_
    have hq : bound (q :: cs) = bound [q] ++ bound cs := bound_append [q] cs
    rw [← List.append_assoc]
    refine hr (b' ++ b) fun x => ?_
    rw [List.map_append, List.mem_append, hb', hb, hq, List.mem_append, or_comm]

/-- The environment in which the mapping code of an action is evaluated. -/
def ActEnv (a : ParseGen.Act) (env : Env) : Prop :=
  ∀ x, x ∈ env.map (·.1) ↔ x ∈ bound (ParseGen.validate a).1 ∨ x ∈ inferNames 0 a.inputs ∨
    x ∈ [name! "newStack", name! "poppedValues", name! "symbolStack"]

theorem act_congr {U U' : User} (h : U.has = U'.has) {c : Call} {a : ParseGen.Act} {r r' : Exp} {env : Env}
    (henv : env.map (·.1) = [name! "symbolStack"])
    (hr : ∀ env, ActEnv a env → ev U c env r = ev U' c env r') :
    ev U c env (actWith r a) = ev U' c env (actWith r' a) := by
  unfold actWith
  refine ev_cond_congr h rfl rfl rfl [name! "newStack", name! "poppedValues"] ?_ fun b1 h1 => ?_
  · intro v b hb
    simp only [isPattern, if_true] at hb
    cases v <;> simp only [mat] at hb <;> try cases hb
    exact matTup_keys [name! "newStack", name! "poppedValues"] _ _ hb
  refine ev_cond_congr h rfl ?_ rfl (inferNames 0 a.inputs) ?_ fun b2 h2 => ?_
  · rw [codeFree]
    generalize inferNames 0 a.inputs = xs
    induction xs with
    | nil => rfl
    | cons x xs ih => simp [inferExps, codeFrees, codeFree, ih]
  · intro v b hb
    simp only [isPattern, if_true] at hb
    cases v <;> simp only [mat] at hb <;> try cases hb
    exact matTup_keys _ _ _ hb
  refine ev_cond_congr h rfl rfl rfl [] ?_ fun b3 h3 => ?_
  · intro v b hb
    rw [if_neg (by simp [isPattern])] at hb
    obtain ⟨t, _, h2⟩ := Option.map_eq_some_iff.mp hb
    rw [test_keys h2]; rfl
  refine conds_congr h _ _ _ fun b4 h4 => hr _ fun x => ?_
  simp only [List.map_append, List.mem_append, h1, h2, h3, h4, henv, List.not_mem_nil, false_or, List.mem_cons, or_false]
  tauto

theorem mget_keys {α : Type} {x : Str} {l : List (Str × α)} : (mget x l).isSome = true ↔ x ∈ l.map (·.1) := by
  induction l with
  | nil => simp [mget]
  | cons e l ih =>
    rw [mget]
    by_cases h : x = e.1
    · simp [h]
    · rw [if_neg h, ih, List.map_cons, List.mem_cons]
      simp [h]

/-- The mapping code of an action, given the values of its parameters, or written in place. -/
theorem code_congr {ps : List Ast.Prod} {U' : User} {c : Call} {a : ParseGen.Act} {e : Exp} {env : Env} {syms : List Str}
    (hs : syms = ps.map (·.name)) (hgood : ∀ k ∈ syms, c k [] = some (.named k))
    (hvar : ∀ k ∈ syms, k ∉ inferNames 0 a.inputs ∧ k ∉ [name! "newStack", name! "poppedValues", name! "symbolStack"])
    (he : Spec.readType a.code = some e) (hd : Spec.dataExp (fun x => x ∈ bound (ParseGen.validate a).1 ∨ x ∈ syms) e)
    (henv : ActEnv a env) :
    ev (Spec.userOf ps) c env (.code a.code (bound (ParseGen.validate a).1)) = ev U' c env (Spec.readD a.code) := by
  rw [ev, Spec.readD, he, Option.getD_some, Spec.userOf]
  simp only [he, Option.bind_some]
  refine ev_data (fun x hx => ?_) e hd
  simp only [lookup]
  have hm : ∀ (l : List Str), mget x (l.map fun x => (x, (mget x env).getD Ty.unknown)) =
      if x ∈ l then some ((mget x env).getD .unknown) else none := by
    intro l
    induction l with
    | nil => rfl
    | cons y l ih =>
      rw [List.map_cons, mget]
      by_cases hy : x = y
      · simp [hy]
      · rw [if_neg hy, ih]; simp [hy]
  rw [hm]
  by_cases hb : x ∈ bound (ParseGen.validate a).1
  · have := mget_keys.mpr ((henv x).mpr (.inl hb))
    obtain ⟨v, hv⟩ := Option.isSome_iff_exists.mp this
    rw [if_pos hb, hv]
    rfl
  · have hx : x ∈ syms := by
      rcases hx with hx | hx
      · exact absurd hx hb
      · exact hx
    have : mget x env = none := by
      rw [← Option.not_isSome_iff_eq_none, mget_keys, henv]
      rintro (h1 | h1 | h1)
      · exact hb h1
      · exact (hvar x hx).1 h1
      · exact (hvar x hx).2 h1
    rw [if_neg hb, this]
    simp only [hgood x hx]
    rw [hs] at hx
    obtain ⟨p, hp, rfl⟩ := List.mem_map.mp hx
    simp only [Spec.inScope, List.isEmpty_nil, Bool.true_and]
    rw [if_pos]
    exact List.any_eq_true.mpr ⟨p, hp, by simp⟩

end Verif.MiniTs
