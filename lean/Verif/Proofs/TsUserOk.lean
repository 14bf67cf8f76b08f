import Verif.Spec.TsUser

/-! # The types of a grammar: having a declared type -/

namespace Verif.Props
open Verif Spec MiniTs

/-! ## Assignability to more types -/

theorem lift_mono {f g : Ty → Bool} (h : ∀ v, f v = true → g v = true) (v : Ty) (hv : lift f v = true) : lift g v = true := by
  cases v <;> simp only [lift, List.all_eq_true] at hv ⊢
  case union ts => exact fun t ht => h t (hv t ht)
  all_goals first | rfl | exact h _ hv

section
variable {U U' : User} (hU : ∀ k v, U.has k v = true → U'.has k v = true)
include hU

mutual
theorem accepts_mono : ∀ (t v : Ty), accepts U t v = true → accepts U' t v = true
  | .never, v, h => by simpa [accepts] using h
  | .any, v, h => by simp [accepts]
  | .unknown, v, h => by simp [accepts]
  | .undef, v, h => by simpa [accepts] using h
  | .str s, v, h => by simpa [accepts] using h
  | .string, v, h => by simpa [accepts] using h
  | .template, v, h => by simpa [accepts] using h
  | .num n, v, h => by simpa [accepts] using h
  | .number, v, h => by simpa [accepts] using h
  | .bool b, v, h => by simpa [accepts] using h
  | .tup ts, v, h => by
    rw [accepts] at h ⊢
    refine lift_mono (fun v hv => ?_) v h
    cases v <;> simp at hv ⊢
    exact acceptsTup_mono ts _ hv
  | .arr t, v, h => by
    rw [accepts] at h ⊢
    refine lift_mono (fun v hv => ?_) v h
    cases v <;> simp at hv ⊢
    · exact fun x hx => accepts_mono t x (hv x hx)
    · exact accepts_mono t _ hv
  | .obj ms, v, h => by
    rw [accepts] at h ⊢
    refine lift_mono (fun v hv => ?_) v h
    cases v <;> simp at hv ⊢
    exact acceptsObj_mono ms _ hv
  | .union ts, v, h => by
    rw [accepts] at h ⊢
    exact lift_mono (fun v hv => acceptsAny_mono ts v hv) v h
  | .named k, v, h => by
    rw [accepts] at h ⊢
    exact lift_mono (fun v hv => hU k v hv) v h
theorem acceptsTup_mono : ∀ (ts vs : List Ty), acceptsTup U ts vs = true → acceptsTup U' ts vs = true
  | [], vs, h => by simpa [acceptsTup] using h
  | t :: ts, [], h => by simp [acceptsTup] at h
  | t :: ts, v :: vs, h => by
    simp only [acceptsTup, Bool.and_eq_true] at h ⊢
    exact ⟨accepts_mono t v h.1, acceptsTup_mono ts vs h.2⟩
theorem acceptsObj_mono : ∀ (ms vs : List (Key × Bool × Ty)), acceptsObj U ms vs = true → acceptsObj U' ms vs = true
  | [], vs, h => by simp [acceptsObj]
  | (k, o, t) :: ms, vs, h => by
    rw [acceptsObj, Bool.and_eq_true] at h ⊢
    refine ⟨?_, acceptsObj_mono ms vs h.2⟩
    have h1 := h.1
    cases hm : member k vs with
    | none => rw [hm] at h1; exact h1
    | some m =>
      obtain ⟨vo, v⟩ := m
      rw [hm] at h1
      simp only [Bool.and_eq_true, Bool.or_eq_true] at h1 ⊢
      exact ⟨h1.1, h1.2.imp (accepts_mono t v) id⟩
theorem acceptsAny_mono : ∀ (ts : List Ty) (v : Ty), acceptsAny U ts v = true → acceptsAny U' ts v = true
  | [], v, h => by simp [acceptsAny] at h
  | t :: ts, v, h => by
    simp only [acceptsAny, Bool.or_eq_true] at h ⊢
    exact h.imp (accepts_mono t v) (acceptsAny_mono ts v)
end
end

theorem hasWithin_succ {ps : List Ast.Prod} : ∀ {n : Nat} {k : Str} {v : Ty}, hasWithin (declared ps) n k v = true → hasWithin (declared ps) (n + 1) k v = true
  | 0, k, v, h => by simp [hasWithin] at h
  | n + 1, k, v, h => by
    rw [hasWithin] at h ⊢
    cases hd : declared ps k with
    | none => simp [hd] at h
    | some t =>
      simp only [hd] at h ⊢
      exact accepts_mono (U := ⟨_, hasWithin (declared ps) n⟩) (U' := ⟨_, hasWithin (declared ps) (n + 1)⟩) (fun k v h => hasWithin_succ h) t v h

theorem hasWithin_le {ps : List Ast.Prod} {n m : Nat} {k : Str} {v : Ty} (h : hasWithin (declared ps) n k v = true) (hm : n ≤ m) :
    hasWithin (declared ps) m k v = true := by
  obtain ⟨d, rfl⟩ := Nat.exists_eq_add_of_le hm
  induction d with
  | zero => exact h
  | succ d ih => exact hasWithin_succ (ih (by omega))

theorem userOf_has {ps : List Ast.Prod} {k : Str} {v : Ty} : (userOf ps).has k v = true ↔ ∃ n, hasWithin (declared ps) n k v = true := by
  simp [userOf, hasDeclared]

/-- `v` has the declared type. -/
def Has (ps : List Ast.Prod) (k : Str) (v : Ty) : Prop := accepts (userOf ps) (.named k) v = true

/-- Having a declared type can be seen by unfolding finitely many declarations. -/
theorem Has.within {ps : List Ast.Prod} {k : Str} {v : Ty} (h : Has ps k v) :
    ∃ n, ∀ m, n ≤ m → accepts ⟨fun _ _ => none, hasWithin (declared ps) m⟩ (.named k) v = true := by
  unfold Has at h
  rw [accepts] at h
  have one : ∀ v, (userOf ps).has k v = true → ∃ n, ∀ m, n ≤ m → hasWithin (declared ps) m k v = true := by
    intro v hv
    obtain ⟨n, hn⟩ := userOf_has.mp hv
    exact ⟨n, fun m hm => hasWithin_le hn hm⟩
  cases v with
  | union ts =>
    simp only [lift, List.all_eq_true] at h
    have : ∃ n, ∀ m, n ≤ m → ∀ t ∈ ts, hasWithin (declared ps) m k t = true := by
      clear one
      induction ts with
      | nil => exact ⟨0, fun m _ t ht => by simp at ht⟩
      | cons t ts ih =>
        obtain ⟨n, hn⟩ := ih fun x hx => h x (List.mem_cons_of_mem _ hx)
        obtain ⟨n', hn'⟩ := userOf_has.mp (h t (List.mem_cons_self ..))
        refine ⟨max n n', fun m hm x hx => ?_⟩
        rcases List.mem_cons.mp hx with rfl | hx
        · exact hasWithin_le hn' (by omega)
        · exact hn m (by omega) x hx
    obtain ⟨n, hn⟩ := this
    exact ⟨n, fun m hm => by rw [accepts]; simpa [lift, List.all_eq_true] using hn m hm⟩
  | never => exact ⟨0, fun m _ => by simp [accepts, lift]⟩
  | any => exact ⟨0, fun m _ => by simp [accepts, lift]⟩
  | _ =>
    simp only [lift] at h
    obtain ⟨n, hn⟩ := one _ h
    exact ⟨n, fun m hm => by rw [accepts]; exact hn m hm⟩

theorem has_of {ps : List Ast.Prod} {k : Str} {t v : Ty} (hd : declared ps k = some t) {n : Nat}
    (h : accepts ⟨fun _ _ => none, hasWithin (declared ps) n⟩ t v = true) (hv : ∀ ts, v ≠ .union ts) : Has ps k v := by
  have : (userOf ps).has k v = true := userOf_has.mpr ⟨n + 1, by rw [hasWithin, hd]; exact h⟩
  unfold Has
  rw [accepts]
  cases v <;> simp only [lift] <;> first | exact this | rfl | exact absurd rfl (hv _)

/-- A tuple of the declared array type. -/
theorem has_arr {ps : List Ast.Prod} {k k' : Str} (hd : declared ps k = some (.arr (.named k'))) (vs : List Ty) :
    Has ps k (.tup vs) ↔ ∀ v ∈ vs, Has ps k' v := by
  constructor
  · intro h v hv
    unfold Has at h ⊢
    rw [accepts] at h
    obtain ⟨n, hn⟩ := userOf_has.mp h
    cases n with
    | zero => simp [hasWithin] at hn
    | succ n =>
      rw [hasWithin, hd] at hn
      simp only [accepts, lift, List.all_eq_true] at hn
      refine accepts_mono (U := ⟨fun _ _ => none, hasWithin (declared ps) n⟩) (fun k v h => userOf_has.mpr ⟨n, h⟩) _ _ ?_
      rw [accepts]
      exact hn v hv
  · intro h
    have : ∃ n, ∀ m, n ≤ m → ∀ v ∈ vs, accepts ⟨fun _ _ => none, hasWithin (declared ps) m⟩ (.named k') v = true := by
      induction vs with
      | nil => exact ⟨0, fun m _ t ht => by simp at ht⟩
      | cons t ts ih =>
        obtain ⟨n, hn⟩ := ih fun x hx => h x (List.mem_cons_of_mem _ hx)
        obtain ⟨n', hn'⟩ := (h t (List.mem_cons_self ..)).within
        refine ⟨max n n', fun m hm x hx => ?_⟩
        rcases List.mem_cons.mp hx with rfl | hx
        · exact hn' m (by omega)
        · exact hn m (by omega) x hx
    obtain ⟨n, hn⟩ := this
    refine has_of hd (n := n) ?_ (by simp)
    rw [accepts]
    simp only [lift, List.all_eq_true]
    exact fun v hv => hn n (Nat.le_refl n) v hv

end Verif.Props
