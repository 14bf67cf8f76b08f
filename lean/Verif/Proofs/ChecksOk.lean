import Verif.Spec.Checks
import Verif.Proofs.TsParseOk

/-! The parameter checks of an action. -/

namespace Verif.Spec
open Verif ParseGen Ts

variable {V : Type} {S : Sem V} {popped : List (Str × Symb V)}

theorem reverse_dropLast_get {α : Type} (l : List α) (k : Nat) : l.dropLast.reverse[k]? = l.reverse[k + 1]? := by
  rw [← List.getElem?_tail, List.tail_reverse]

theorem runConds_cons_some {c : Cond} {cs : List Cond} {es : List Msg} {env b : List (Str × V)}
    (h : checkCond S popped env c = some b) :
    runConds S popped (c :: cs) es env = runConds S popped cs es.dropLast (env ++ b) := by simp only [runConds, h]

theorem runConds_cons_none {c : Cond} {cs : List Cond} {es : List Msg} {env : List (Str × V)}
    (h : checkCond S popped env c = none) : runConds S popped (c :: cs) es env = .error es.reverse[0]? := by
  simp only [runConds, h]
  rw [← List.head?_eq_getElem?, List.head?_reverse]

/-- Number of checks of a parameter. -/
def weight : Param → Nat
  | .named _ (.nonTerm _) => 1
  | .named _ _ => 2
  | _ => 0

theorem positions_cons (i : Nat) (p : Param) (ps : List Param) :
    positions i (p :: ps) = List.replicate (weight p) (i + 1) ++ positions (i + 1) ps := by
  cases p with
  | named n ty => cases ty <;> rfl
  | _ => rfl

/-- The value of one parameter. -/
def valuesAt (S : Sem V) (p : Param) (y : Symb V) : List (Str × V) := valuesOf S [p] [y]

theorem valuesOf_cons (p : Param) (ps : List Param) (y : Symb V) (ys : List (Symb V)) :
    valuesOf S (p :: ps) (y :: ys) = valuesAt S p y ++ valuesOf S ps ys := by
  cases p <;> simp [valuesOf, valuesAt]

theorem check_pass {act i : Nat} {p : Param} {y : Symb V} {cs : List Cond} {es : List Msg} {env : List (Str × V)}
    (hp : ∀ n ty, p = .named n ty → mget n popped = some y)
    (he : ∀ n k, p = .named n (.nonTerm k) → mget k env = none) (hc : Checked S p y) :
    ∃ es' : List Msg, (∀ k, es'.reverse[k]? = es.reverse[k + weight p]?) ∧
      runConds S popped ((paramChecks act (i + 1) p).1 ++ cs) es env = runConds S popped cs es' (env ++ valuesAt S p y) := by
  cases p with
  | named n ty =>
    have hm := hp n ty rfl
    have hs := hc n ty rfl
    cases ty with
    | named m t => exact False.elim hs
    | nonTerm k =>
      obtain ⟨v, rfl, hv⟩ := hs
      have hn := he n k rfl
      refine ⟨es.dropLast, fun k => reverse_dropLast_get _ _, ?_⟩
      exact runConds_cons_some (by simp [checkCond, hm, inType, hn, hv, valuesAt, valuesOf, valueOf])
    | strLit s =>
      obtain ⟨kind, rfl⟩ := hs
      refine ⟨es.dropLast.dropLast, fun k => by rw [reverse_dropLast_get, reverse_dropLast_get]; rfl, ?_⟩
      refine (runConds_cons_some (b := []) (by simp [checkCond, hm])).trans ?_
      rw [List.append_nil]
      exact runConds_cons_some (by simp [checkCond, hm, valuesAt, valuesOf, valueOf])
    | regex s =>
      obtain ⟨kind, w, rfl⟩ := hs
      refine ⟨es.dropLast.dropLast, fun k => by rw [reverse_dropLast_get, reverse_dropLast_get]; rfl, ?_⟩
      refine (runConds_cons_some (b := []) (by simp [checkCond, hm])).trans ?_
      rw [List.append_nil]
      exact runConds_cons_some (by simp [checkCond, hm, valuesAt, valuesOf, valueOf])
  | nonTerm k => exact ⟨es, fun _ => rfl, by simp [paramChecks, valuesAt, valuesOf]⟩
  | strLit k => exact ⟨es, fun _ => rfl, by simp [paramChecks, valuesAt, valuesOf]⟩
  | regex k => exact ⟨es, fun _ => rfl, by simp [paramChecks, valuesAt, valuesOf]⟩

theorem check_fail {act i : Nat} {p : Param} {y : Symb V} {cs : List Cond} {es : List Msg} {env : List (Str × V)}
    (hf : ∀ n ty, p = .named n ty → ∀ m t, ty ≠ .named m t)
    (hp : ∀ n ty, p = .named n ty → mget n popped = some y)
    (he : ∀ n k, p = .named n (.nonTerm k) → mget k env = none) (hc : ¬ Checked S p y) :
    ∃ k, k < weight p ∧ runConds S popped ((paramChecks act (i + 1) p).1 ++ cs) es env = .error es.reverse[k]? := by
  cases p with
  | named n ty =>
    have hm := hp n ty rfl
    have hs : ¬ Suits S ty y := fun h => hc fun n' ty' e => by cases e; exact h
    cases ty with
    | named m t => exact absurd rfl (hf n _ rfl m t)
    | nonTerm k =>
      have hn := he n k rfl
      refine ⟨0, by simp [weight], runConds_cons_none ?_⟩
      cases y with
      | token t => simp [checkCond, hm]
      | nonTerm k' v =>
        have : ¬ (k' = k ∧ S.has k v = true) := by
          rintro ⟨rfl, hv⟩
          exact hs ⟨v, rfl, hv⟩
        simp [checkCond, hm, inType, hn, this]
    | strLit s =>
      cases y with
      | nonTerm k' v => exact ⟨0, by simp [weight], runConds_cons_none (by simp [checkCond, hm])⟩
      | token t =>
        cases t with
        | none => exact ⟨0, by simp [weight], runConds_cons_none (by simp [checkCond, hm])⟩
        | some t =>
          refine ⟨1, by simp [weight], ?_⟩
          refine (runConds_cons_some (b := []) (by simp [checkCond, hm])).trans ?_
          rw [List.append_nil]
          refine (runConds_cons_none ?_).trans (by rw [reverse_dropLast_get])
          obtain ⟨kind, v⟩ := t
          cases v with
          | none => simp [checkCond, hm]
          | some v =>
            cases v with
            | val w =>
              have : w ≠ s := by rintro rfl; exact hs ⟨kind, rfl⟩
              simp [checkCond, hm, this]
            | _ => simp [checkCond, hm]
    | regex s =>
      cases y with
      | nonTerm k' v => exact ⟨0, by simp [weight], runConds_cons_none (by simp [checkCond, hm])⟩
      | token t =>
        cases t with
        | none => exact ⟨0, by simp [weight], runConds_cons_none (by simp [checkCond, hm])⟩
        | some t =>
          refine ⟨1, by simp [weight], ?_⟩
          refine (runConds_cons_some (b := []) (by simp [checkCond, hm])).trans ?_
          rw [List.append_nil]
          refine (runConds_cons_none ?_).trans (by rw [reverse_dropLast_get])
          obtain ⟨kind, v⟩ := t
          cases v with
          | none => simp [checkCond, hm]
          | some v =>
            cases v with
            | val w => exact absurd ⟨kind, w, rfl⟩ hs
            | _ => simp [checkCond, hm]
  | nonTerm k => exact absurd (fun n ty e => by cases e) hc
  | strLit k => exact absurd (fun n ty e => by cases e) hc
  | regex k => exact absurd (fun n ty e => by cases e) hc

theorem valuesAt_name {p : Param} {y : Symb V} {x : Str × V} (h : x ∈ valuesAt S p y) : ∃ ty, p = .named x.1 ty := by
  cases p with
  | named n ty =>
    simp only [valuesAt, valuesOf, List.append_nil, Option.mem_toList, Option.map_eq_some_iff] at h
    obtain ⟨v, _, rfl⟩ := h
    exact ⟨ty, rfl⟩
  | _ => simp [valuesAt, valuesOf] at h

theorem checks_run {act : Nat} : ∀ {ps : List Param} {ys : List (Symb V)} {i : Nat} {env : List (Str × V)} {es : List Msg},
    ps.length = ys.length → (∀ n ty, Param.named n ty ∈ ps → ∀ m t, ty ≠ .named m t) →
    (∀ n ty k, Param.named n ty ∈ ps → ∀ m, Param.named m (.nonTerm k) ∈ ps → n ≠ k) →
    (∀ n y, (n, y) ∈ poppedNames ps ys → mget n popped = some y) →
    (∀ m k, Param.named m (.nonTerm k) ∈ ps → mget k env = none) →
    (List.Forall₂ (Checked S) ps ys → runConds S popped (checks act i ps).1 es env = .ok (env ++ valuesOf S ps ys)) ∧
    ∀ j p y, ps[j]? = some p → ys[j]? = some y → List.Forall₂ (Checked S) (ps.take j) (ys.take j) → ¬ Checked S p y →
      ∃ k : Nat, (positions i ps)[k]? = some (i + j + 1) ∧ runConds S popped (checks act i ps).1 es env = .error es.reverse[k]?
  | [], [], i, env, es, _, _, _, _, _ => ⟨fun _ => by simp [checks, runConds, valuesOf], by simp⟩
  | p :: ps, y :: ys, i, env, es, hl, hf, hn, hp, he => by
    have hp1 : ∀ n ty, p = .named n ty → mget n popped = some y := by
      rintro n ty rfl
      exact hp n y (by simp [poppedNames])
    have hp2 : ∀ n y, (n, y) ∈ poppedNames ps ys → mget n popped = some y := by
      intro n y' h
      refine hp n y' ?_
      simp only [poppedNames, List.zip_cons_cons, List.filterMap_cons] at h ⊢
      split
      · exact h
      · exact List.mem_cons_of_mem _ h
    have he1 : ∀ n k, p = .named n (.nonTerm k) → mget k env = none := by
      rintro n k rfl
      exact he n k (by simp)
    have hf2 : ∀ n ty, Param.named n ty ∈ ps → ∀ m t, ty ≠ .named m t := fun n ty h => hf n ty (by simp [h])
    have hn2 : ∀ n ty k, Param.named n ty ∈ ps → ∀ m, Param.named m (.nonTerm k) ∈ ps → n ≠ k :=
      fun n ty k h m h' => hn n ty k (by simp [h]) m (by simp [h'])
    have he2 : ∀ m k, Param.named m (.nonTerm k) ∈ ps → mget k (env ++ valuesAt S p y) = none := by
      intro m k h
      rw [mget_append_none (he m k (by simp [h]))]
      intro hk
      obtain ⟨x, hx, rfl⟩ := List.mem_map.mp hk
      obtain ⟨ty, rfl⟩ := valuesAt_name hx
      exact hn x.1 ty x.1 (by simp) m (by simp [h]) rfl
    have hcs : (checks act i (p :: ps)).1 = (paramChecks act (i + 1) p).1 ++ (checks act (i + 1) ps).1 := rfl
    rw [hcs]
    constructor
    · intro h
      cases h with
      | cons h1 h2 =>
        obtain ⟨es', _, e⟩ := check_pass (act := act) (i := i) (cs := (checks act (i + 1) ps).1) (es := es) hp1 he1 h1
        rw [e, (checks_run (by simpa using hl) hf2 hn2 hp2 he2).1 h2, valuesOf_cons, List.append_assoc]
    · intro j q z hq hz hall hno
      cases j with
      | zero =>
        cases hq; cases hz
        obtain ⟨k, hk, e⟩ := check_fail (act := act) (i := i) (cs := (checks act (i + 1) ps).1) (es := es)
          (fun n ty e => hf n ty (by simp [e])) hp1 he1 hno
        refine ⟨k, ?_, e⟩
        rw [positions_cons, List.getElem?_append_left (by simpa using hk), List.getElem?_replicate, if_pos hk]
      | succ j =>
        simp only [List.getElem?_cons_succ] at hq hz
        simp only [List.take_succ_cons] at hall
        cases hall with
        | cons h1 h2 =>
          obtain ⟨es', hes, e⟩ := check_pass (act := act) (i := i) (cs := (checks act (i + 1) ps).1) (es := es) hp1 he1 h1
          obtain ⟨k, hk, e'⟩ := (checks_run (act := act) (i := i + 1) (es := es') (by simpa using hl) hf2 hn2 hp2 he2).2 j q z hq hz h2 hno
          refine ⟨k + weight p, ?_, ?_⟩
          · rw [positions_cons, List.getElem?_append_right (by simp), List.length_replicate, Nat.add_sub_cancel, hk]
            congr 1; omega
          · rw [e, e', hes]
  | [], _ :: _, _, _, _, hl, _, _, _, _ => by simp at hl
  | _ :: _, [], _, _, _, hl, _, _, _, _ => by simp at hl

theorem checks_pos {act : Nat} : ∀ {ps : List Param} {i : Nat}, (∀ n ty, Param.named n ty ∈ ps → ∀ m t, ty ≠ .named m t) →
    (checks act i ps).2.map Msg.pos = positions i ps ∧ (checks act i ps).1.length = (positions i ps).length
  | [], _, _ => by simp [checks, positions]
  | p :: ps, i, hf => by
    obtain ⟨h1, h2⟩ := checks_pos (act := act) (ps := ps) (i := i + 1) fun n ty h => hf n ty (by simp [h])
    rw [positions_cons]
    simp only [checks, List.map_append, List.length_append, h1, h2, List.length_replicate]
    have : ((paramChecks act (i + 1) p).2.map Msg.pos = List.replicate (weight p) (i + 1)) ∧ (paramChecks act (i + 1) p).1.length = weight p := by
      cases p with
      | named n ty =>
        cases ty with
        | named m t => exact absurd rfl (hf n _ (by simp) m t)
        | _ => exact ⟨rfl, rfl⟩
      | _ => exact ⟨rfl, rfl⟩
    rw [this.1, this.2]
    exact ⟨rfl, rfl⟩

theorem poppedNames_names : ∀ {ps : List Param} {ys : List (Symb V)}, ps.length = ys.length →
    (poppedNames ps ys).map Prod.fst = ps.filterMap Param.name?
  | [], [], _ => rfl
  | p :: ps, y :: ys, h => by
    have ih := poppedNames_names (ps := ps) (ys := ys) (by simpa using h)
    cases p <;> simp_all [poppedNames, Param.name?, List.filterMap_cons]
  | [], _ :: _, h => by simp at h
  | _ :: _, [], h => by simp at h

theorem first_fail {α β : Type} {R : α → β → Prop} : ∀ {l : List α} {l' : List β}, l.length = l'.length → ¬ List.Forall₂ R l l' →
    ∃ (i : Nat) (p : α) (y : β), l[i]? = some p ∧ l'[i]? = some y ∧ List.Forall₂ R (l.take i) (l'.take i) ∧ ¬ R p y
  | [], [], _, h => absurd .nil h
  | a :: l, b :: l', hl, h => by
    by_cases hr : R a b
    · obtain ⟨i, p, y, h1, h2, h3, h4⟩ := first_fail (by simpa using hl) fun h' => h (.cons hr h')
      exact ⟨i + 1, p, y, h1, h2, .cons hr h3, h4⟩
    · exact ⟨0, a, b, rfl, rfl, .nil, hr⟩
  | [], _ :: _, hl, _ => by simp at hl
  | _ :: _, [], hl, _ => by simp at hl

theorem positions_append : ∀ {a b : List Param} {i : Nat}, positions i (a ++ b) = positions i a ++ positions (i + a.length) b
  | [], b, i => by simp [positions]
  | p :: a, b, i => by
    rw [List.cons_append, positions_cons, positions_cons, positions_append, List.append_assoc, List.length_cons]
    congr 3
    omega

theorem weight_pos {p : Param} : 0 < weight p ↔ ∃ n ty, p = .named n ty := by
  cases p with
  | named n ty => cases ty <;> simp [weight]
  | _ => simp [weight]

theorem mem_positions {x : Nat} : ∀ {ps : List Param} {i : Nat}, x ∈ positions i ps ↔
    ∃ (j : Nat) (n : Str) (ty : Param), ps[j]? = some (.named n ty) ∧ x = i + j + 1
  | [], i => by simp [positions]
  | p :: ps, i => by
    rw [positions_cons, List.mem_append, List.mem_replicate, mem_positions, ← Nat.pos_iff_ne_zero, weight_pos]
    constructor
    · rintro (⟨⟨n, ty, rfl⟩, rfl⟩ | ⟨j, n, ty, h, rfl⟩)
      · exact ⟨0, n, ty, rfl, rfl⟩
      · exact ⟨j + 1, n, ty, h, by omega⟩
    · rintro ⟨j, n, ty, h, rfl⟩
      cases j with
      | zero => simp only [List.getElem?_cons_zero, Option.some.injEq] at h; exact .inl ⟨⟨n, ty, h⟩, rfl⟩
      | succ j => exact .inr ⟨j, n, ty, h, by omega⟩

theorem positions_sorted : ∀ {ps : List Param} {i : Nat}, (positions i ps).Pairwise (· ≤ ·)
  | [], i => by simp [positions]
  | p :: ps, i => by
    rw [positions_cons, List.pairwise_append]
    refine ⟨List.pairwise_replicate.mpr (.inr (Nat.le_refl _)), positions_sorted, ?_⟩
    intro x hx y hy
    obtain ⟨j, n, ty, _, rfl⟩ := mem_positions.mp hy
    rw [List.eq_of_mem_replicate hx]
    omega

theorem last_position {ps : List Param} {j : Nat} {n : Str} {ty : Param} (hq : ps[j]? = some (.named n ty))
    (hlast : ∀ (i : Nat) m t, ps[i]? = some (.named m t) → i ≤ j) : (positions 0 ps).reverse[0]? = some (j + 1) := by
  have hm : j + 1 ∈ positions 0 ps := mem_positions.mpr ⟨j, n, ty, hq, by omega⟩
  rw [← List.head?_eq_getElem?, List.head?_reverse]
  have hne : positions 0 ps ≠ [] := List.ne_nil_of_mem hm
  rw [List.getLast?_eq_some_getLast hne]
  have hs := positions_sorted (ps := ps) (i := 0)
  rw [← List.dropLast_append_getLast hne] at hm hs
  obtain ⟨i, m, t, h1, h2⟩ := mem_positions.mp (List.getLast_mem hne)
  have h3 := hlast i m t h1
  rcases List.mem_append.mp hm with hm | hm
  · have := (List.pairwise_append.mp hs).2.2 _ hm _ (List.mem_singleton.mpr rfl)
    congr 1; omega
  · rw [← List.mem_singleton.mp hm]

theorem first_position {ps : List Param} {i : Nat} {n k : Str} (hp : ps[i]? = some (.named n (.nonTerm k)))
    (hfirst : ∀ (j : Nat) m t, ps[j]? = some (.named m t) → i ≤ j) {x : Nat} (hx : (positions 0 ps)[x]? = some (i + 1)) : x = 0 := by
  obtain ⟨hi, he⟩ := List.getElem?_eq_some_iff.mp hp
  have hsplit : ps = ps.take i ++ .named n (.nonTerm k) :: ps.drop (i + 1) := by
    rw [← he, List.getElem_cons_drop, List.take_append_drop]
  have h0 : positions 0 (ps.take i) = [] := by
    rw [List.eq_nil_iff_forall_not_mem]
    intro y hy
    obtain ⟨j, m, t, h1, _⟩ := mem_positions.mp hy
    rw [List.getElem?_take] at h1
    split at h1
    · have := hfirst j m t h1
      omega
    · cases h1
  rw [hsplit, positions_append, h0, List.nil_append, positions_cons] at hx
  cases x with
  | zero => rfl
  | succ x =>
    simp only [weight, List.replicate_one, List.singleton_append, List.getElem?_cons_succ] at hx
    obtain ⟨j, m, t, _, h2⟩ := mem_positions.mp (List.mem_of_getElem? hx)
    rw [List.length_take, Nat.min_eq_left (by omega)] at h2
    omega

end Verif.Spec
