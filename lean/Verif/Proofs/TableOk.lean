import Verif.Proofs.MergeOk
import Mathlib.Data.List.Pairwise

/-! The action and goto tables. -/

namespace Verif
open Spec Grammar

namespace Table
variable {κ ν : Type} [BOrd κ] [DecidableEq κ] [LawfulBOrd κ]

theorem tryIndex_insert (t : Table κ ν) (i : Nat) (k : κ) (v : ν) (i' : Nat) (k' : κ) :
    (t.insert i k v).tryIndex i' k' = if i' = i ∧ k' = k then some v else t.tryIndex i' k' := by
  unfold insert tryIndex
  cases h : mget i t with
  | none =>
    simp only [mget_minsert]
    by_cases hi : i' = i
    · subst hi
      simp only [if_true, true_and, h]
      by_cases hk : k' = k <;> simp [mget, hk]
    · simp [hi]
  | some inner =>
    simp only [mget_minsert]
    by_cases hi : i' = i
    · subst hi
      simp only [if_true, true_and, h, mget_minsert]
    · simp [hi]

omit [BOrd κ] [LawfulBOrd κ] in
theorem tryIndex_nil (i : Nat) (k : κ) : Table.tryIndex ([] : Table κ ν) i k = none := rfl
end Table

namespace Lalr
open ItemSet

/-! ## claiming cells -/

/-- Claims a list of cells. -/
def addAll : List (Nat × Nat × Action) → Table Nat Action → Res (Table Nat Action)
  | [], t => .ok t
  | (i, k, a) :: l, t => do
    let t ← claim t i k a
    addAll l t

theorem addAll_append : ∀ (l l' : List (Nat × Nat × Action)) (t : Table Nat Action),
    addAll (l ++ l') t = (do let t ← addAll l t; addAll l' t)
  | [], _, _ => rfl
  | (i, k, a) :: l, l', t => by
    simp only [List.cons_append, addAll]
    cases h : claim t i k a with
    | error e => rfl
    | ok t' =>
      simp only [bind, Except.bind]
      exact addAll_append l l' t'

/-- The cell of a claim. -/
def key (x : Nat × Nat × Action) : Nat × Nat := (x.1, x.2.1)

theorem addAll_spec : ∀ (l : List (Nat × Nat × Action)) (t : Table Nat Action),
    ((l.map key).Nodup → (∀ x ∈ l, t.tryIndex x.1 x.2.1 = none) → ∃ t', addAll l t = .ok t') ∧
    (∀ t', addAll l t = .ok t' → (l.map key).Nodup ∧ (∀ x ∈ l, t.tryIndex x.1 x.2.1 = none) ∧
      ∀ i k a, t'.tryIndex i k = some a ↔ t.tryIndex i k = some a ∨ (i, k, a) ∈ l) ∧
    (∀ e, addAll l t = .error e → e = .conflict)
  | [], t => by
    refine ⟨fun _ _ => ⟨t, rfl⟩, ?_, by simp [addAll]⟩
    rintro t' h
    simp only [addAll, Except.ok.injEq] at h
    subst h
    simp
  | (i, k, a) :: l, t => by
    have ih := addAll_spec l
    cases hc : t.tryIndex i k with
    | some b =>
      have hcl : addAll ((i, k, a) :: l) t = .error .conflict := by
        simp [addAll, claim, hc, bind, Except.bind]
      rw [hcl]
      refine ⟨fun _ h => ?_, by simp, by simp⟩
      have := h (i, k, a) (by simp)
      simp [hc] at this
    | none =>
      have hcl : addAll ((i, k, a) :: l) t = addAll l (t.insert i k a) := by
        simp [addAll, claim, hc, bind, Except.bind]
      rw [hcl]
      obtain ⟨h1, h2, h3⟩ := ih (t.insert i k a)
      refine ⟨fun hn hf => ?_, fun t' ht => ?_, h3⟩
      · simp only [List.map_cons, List.nodup_cons] at hn
        refine h1 hn.2 fun x hx => ?_
        rw [Table.tryIndex_insert]
        split
        · rename_i he
          refine absurd (List.mem_map_of_mem (f := key) hx) ?_
          have : key x = key (i, k, a) := by simp [key, he.1, he.2]
          rw [this]; exact hn.1
        · exact hf x (by simp [hx])
      · obtain ⟨k1, k2, k3⟩ := h2 t' ht
        have hne : ∀ x ∈ l, ¬ (x.1 = i ∧ x.2.1 = k) := by
          intro x hx he
          have := k2 x hx
          rw [Table.tryIndex_insert, if_pos he] at this
          cases this
        refine ⟨?_, ?_, ?_⟩
        · simp only [List.map_cons, List.nodup_cons]
          refine ⟨?_, k1⟩
          intro hm
          obtain ⟨x, hx, he⟩ := List.mem_map.mp hm
          simp only [key, Prod.mk.injEq] at he
          exact hne x hx he
        · intro x hx
          rcases List.mem_cons.mp hx with rfl | hx
          · exact hc
          · have := k2 x hx
            rwa [Table.tryIndex_insert, if_neg (hne x hx)] at this
        · intro i' k' a'
          rw [k3, Table.tryIndex_insert]
          by_cases he : i' = i ∧ k' = k
          · rw [if_pos he]
            obtain ⟨rfl, rfl⟩ := he
            simp only [hc, Option.some.injEq, List.mem_cons, Prod.mk.injEq, true_and, reduceCtorEq, false_or]
            constructor
            · rintro (h | h)
              · exact .inl h.symm
              · exact .inr h
            · rintro (h | h)
              · exact .inl h.symm
              · exact .inr h
          · rw [if_neg he]
            simp only [List.mem_cons, Prod.mk.injEq]
            constructor
            · rintro (h | h)
              · exact .inl h
              · exact .inr (.inr h)
            · rintro (h | ⟨h1, h2, _⟩ | h)
              · exact .inl h
              · exact absurd ⟨h1, h2⟩ he
              · exact .inr h

/-! ## the claims of one item -/

section
variable (g : Grammar) (d : Nat) (lalr lr : List ItemSet) (m : List (Nat × Nat))

/-- The transition looked up for a state. -/
def lookup (s : ItemSet) (x : Sym) : Option Nat :=
  match computeGoto g d lalr lr m s x with
  | .ok r => r
  | .error _ => none

/-- The cells claimed for one item. -/
def cells (i : Nat) (s : ItemSet) (e : Item × List Nat) : List (Nat × Nat × Action) :=
  match dotToken g e.1 with
  | some x =>
    if x.isTerminal then
      match g.getTokenIdx x, lookup g d lalr lr m s x with
      | some k, some j => [(i, k, .shift j)]
      | _, _ => []
    else []
  | none => e.2.map fun la =>
    if la = 0 ∧ e.1.1 = 0 then (i, 0, .accept) else (i, la, .reduce e.1.1)

/-- The lookups for one item do not fail. -/
def Sound (s : ItemSet) (e : Item × List Nat) : Prop :=
  ∀ x, dotToken g e.1 = some x → x.isTerminal = true →
    (∃ k, g.getTokenIdx x = some k) ∧ ∃ r, computeGoto g d lalr lr m s x = .ok r

variable {g d lalr lr m}

theorem reduceLoop_eq (i : Nat) (it : Item) : ∀ (las : List Nat) (t : Table Nat Action),
    reduceLoop i it las t = addAll (las.map fun la =>
      if la = 0 ∧ it.1 = 0 then (i, 0, .accept) else (i, la, .reduce it.1)) t
  | [], t => rfl
  | la :: las, t => by
    have hred : reduceLoop i it (la :: las) t = (do
        let t ← if la = 0 ∧ it.1 = 0 then claim t i 0 .accept else claim t i la (.reduce it.1)
        reduceLoop i it las t) := rfl
    rw [hred]
    simp only [List.map_cons]
    by_cases h : la = 0 ∧ it.1 = 0
    · rw [if_pos h, if_pos h]
      simp only [addAll]
      cases claim t i 0 .accept with
      | error e => rfl
      | ok t' => simp only [bind, Except.bind]; exact reduceLoop_eq i it las t'
    · simp only [h, if_false, addAll]
      cases claim t i la (.reduce it.1) with
      | error e => rfl
      | ok t' => simp only [bind, Except.bind]; exact reduceLoop_eq i it las t'

theorem actionItem_eq {i : Nat} {s : ItemSet} {e : Item × List Nat} (h : Sound g d lalr lr m s e)
    (t : Table Nat Action) : actionItem g d lalr lr m i s e t = addAll (cells g d lalr lr m i s e) t := by
  unfold actionItem cells
  cases hd : dotToken g e.1 with
  | none => exact reduceLoop_eq i e.1 e.2 t
  | some x =>
    simp only
    by_cases hx : x.isTerminal = true
    · obtain ⟨⟨k, hk⟩, r, hr⟩ := h x hd hx
      simp only [hx, if_true, hk, hr, lookup, bind, Except.bind]
      cases r with
      | none => rfl
      | some j =>
        simp only [addAll, bind, Except.bind]
        cases claim t i k (.shift j) <;> rfl
    · simp only [hx, Bool.false_eq_true, if_false, addAll]

theorem actionItem_sound {i : Nat} {s : ItemSet} {e : Item × List Nat} {t t' : Table Nat Action}
    (h : actionItem g d lalr lr m i s e t = .ok t') : Sound g d lalr lr m s e := by
  intro x hd hx
  unfold actionItem at h
  simp only [hd, hx, if_true] at h
  cases hk : g.getTokenIdx x with
  | none => simp [hk] at h
  | some k =>
    cases hr : computeGoto g d lalr lr m s x with
    | error e => simp [hk, hr, bind, Except.bind] at h
    | ok r => exact ⟨⟨k, rfl⟩, r, rfl⟩

theorem actionItems_eq {i : Nat} {s : ItemSet} : ∀ (es : List (Item × List Nat)) (t : Table Nat Action),
    (∀ e ∈ es, Sound g d lalr lr m s e) →
    actionItems g d lalr lr m i s es t = addAll (es.flatMap fun e => cells g d lalr lr m i s e) t
  | [], t, _ => rfl
  | e :: es, t, h => by
    simp only [actionItems, List.flatMap_cons]
    rw [addAll_append, actionItem_eq (h e (by simp))]
    cases addAll (cells g d lalr lr m i s e) t with
    | error e => rfl
    | ok t' =>
      simp only [bind, Except.bind]
      exact actionItems_eq es t' fun e he => h e (by simp [he])

theorem actionItems_sound {i : Nat} {s : ItemSet} : ∀ (es : List (Item × List Nat)) (t t' : Table Nat Action),
    actionItems g d lalr lr m i s es t = .ok t' → ∀ e ∈ es, Sound g d lalr lr m s e
  | [], _, _, _ => by simp
  | e :: es, t, t', h => by
    simp only [actionItems] at h
    cases h1 : actionItem g d lalr lr m i s e t with
    | error e => simp [h1, bind, Except.bind] at h
    | ok t1 =>
      simp only [h1, bind, Except.bind] at h
      intro e' he'
      rcases List.mem_cons.mp he' with rfl | he'
      · exact actionItem_sound h1
      · exact actionItems_sound es t1 t' h e' he'

/-- All cells claimed by the states from number `i` on. -/
def allCells (g : Grammar) (d : Nat) (lalr lr : List ItemSet) (m : List (Nat × Nat)) :
    Nat → List ItemSet → List (Nat × Nat × Action)
  | _, [] => []
  | i, s :: ss => (s.flatMap fun e => cells g d lalr lr m i s e) ++ allCells g d lalr lr m (i + 1) ss

theorem actionStates_eq : ∀ (ss : List ItemSet) (i : Nat) (t : Table Nat Action),
    (∀ s ∈ ss, ∀ e ∈ s, Sound g d lalr lr m s e) →
    actionStates g d lalr lr m i ss t = addAll (allCells g d lalr lr m i ss) t
  | [], i, t, _ => rfl
  | s :: ss, i, t, h => by
    simp only [actionStates, allCells]
    rw [addAll_append, actionItems_eq s t (h s (by simp))]
    cases addAll (s.flatMap fun e => cells g d lalr lr m i s e) t with
    | error e => rfl
    | ok t' =>
      simp only [bind, Except.bind]
      exact actionStates_eq ss (i + 1) t' fun s hs => h s (by simp [hs])

theorem actionStates_sound : ∀ (ss : List ItemSet) (i : Nat) (t t' : Table Nat Action),
    actionStates g d lalr lr m i ss t = .ok t' → ∀ s ∈ ss, ∀ e ∈ s, Sound g d lalr lr m s e
  | [], _, _, _, _ => by simp
  | s :: ss, i, t, t', h => by
    simp only [actionStates] at h
    cases h1 : actionItems g d lalr lr m i s s t with
    | error e => simp [h1, bind, Except.bind] at h
    | ok t1 =>
      simp only [h1, bind, Except.bind] at h
      intro s' hs'
      rcases List.mem_cons.mp hs' with rfl | hs'
      · exact actionItems_sound _ _ _ h1
      · exact actionStates_sound ss (i + 1) t1 t' h s' hs'

theorem mem_allCells : ∀ (ss : List ItemSet) (i : Nat) (x : Nat × Nat × Action),
    x ∈ allCells g d lalr lr m i ss ↔
      ∃ n s, ss[n]? = some s ∧ ∃ e ∈ s, x ∈ cells g d lalr lr m (i + n) s e
  | [], i, x => by simp [allCells]
  | s :: ss, i, x => by
    simp only [allCells, List.mem_append, List.mem_flatMap]
    rw [mem_allCells ss (i + 1) x]
    constructor
    · rintro (h | ⟨n, s', hn, h⟩)
      · exact ⟨0, s, rfl, h⟩
      · exact ⟨n + 1, s', by simpa using hn, by rw [← Nat.add_assoc, Nat.add_right_comm]; exact h⟩
    · rintro ⟨n, s', hn, h⟩
      cases n with
      | zero => simp only [List.getElem?_cons_zero, Option.some.injEq] at hn; subst hn; exact .inl h
      | succ n =>
        refine .inr ⟨n, s', by simpa using hn, ?_⟩
        rw [Nat.add_right_comm, Nat.add_assoc]; exact h

theorem cells_state {i : Nat} {s : ItemSet} {e : Item × List Nat} {x : Nat × Nat × Action}
    (h : x ∈ cells g d lalr lr m i s e) : x.1 = i := by
  unfold cells at h
  split at h
  · split at h
    · split at h
      · simp only [List.mem_singleton] at h; rw [h]
      · simp at h
    · simp at h
  · obtain ⟨la, _, rfl⟩ := List.mem_map.mp h
    split <;> rfl

theorem isTerminal_iff {x : Sym} : x.isTerminal = true ↔ ∀ A, x ≠ .nonTerm A := by
  cases x <;> simp [Sym.isTerminal]

/-- The cells of an item are what it calls for. -/
theorem mem_cells (h : GOk g) {i : Nat} {s : ItemSet} (hr : ∀ it la, Has s it la → Rng g it la)
    (hw : WFSet s) {it : Item} {k : Nat} {a : Action} :
    (∃ las, (it, las) ∈ s ∧ (i, k, a) ∈ cells g d lalr lr m i s (it, las)) ↔
      Calls g (fun x j => lookup g d lalr lr m s x = some j) s it k a := by
  constructor
  · rintro ⟨las, hm, hc⟩
    obtain ⟨la0, hla0⟩ := List.exists_mem_of_ne_nil las (hw.las it las hm).1
    obtain ⟨⟨p, hp, hle⟩, _⟩ := hr it la0 ⟨las, hm, hla0⟩
    unfold cells at hc
    cases hd : dotToken g it with
    | some x =>
      simp only [hd] at hc
      obtain ⟨p', hp', hx⟩ := (dotToken_iff h).mp hd
      split at hc
      · rename_i hterm
        split at hc
        · rename_i k' j hk hj
          simp only [List.mem_singleton, Prod.mk.injEq, true_and] at hc
          obtain ⟨rfl, rfl⟩ := hc
          exact .shift hm hp' hx (isTerminal_iff.mp hterm) (h.tokIdx.mp hk) hj
        · simp at hc
      · simp at hc
    | none =>
      simp only [hd, List.mem_map] at hc
      have hnone : p.inputs[it.2]? = none := by
        simpa [dotToken, h.prodAt_of hp] using hd
      obtain ⟨la, hla, he⟩ := hc
      split at he
      · rename_i hcond
        simp only [Prod.mk.injEq, true_and] at he
        obtain ⟨rfl, rfl⟩ := he
        obtain ⟨rfl, h0⟩ := hcond
        exact .accept ⟨las, hm, hla⟩ h0 (h0 ▸ hp) hnone
      · rename_i hcond
        simp only [Prod.mk.injEq, true_and] at he
        obtain ⟨rfl, rfl⟩ := he
        exact .reduce ⟨las, hm, hla⟩ hp hnone hcond
  · intro hc
    cases hc with
    | shift hm hp hx hterm hk hj =>
      refine ⟨_, hm, ?_⟩
      unfold cells
      rw [(dotToken_iff h).mpr ⟨_, hp, hx⟩]
      simp only [isTerminal_iff.mpr hterm, if_true, h.tokIdx.mpr hk, hj, List.mem_singleton]
    | reduce hh hp hx hcond =>
      obtain ⟨las, hm, hla⟩ := hh
      refine ⟨las, hm, ?_⟩
      have : dotToken g it = none := by simpa [dotToken, h.prodAt_of hp] using hx
      unfold cells
      simp only [this, List.mem_map]
      exact ⟨k, hla, by rw [if_neg hcond]⟩
    | accept hh h0 hp hx =>
      obtain ⟨las, hm, hla⟩ := hh
      refine ⟨las, hm, ?_⟩
      have : dotToken g it = none := by simpa [dotToken, h0, h.prodAt_of hp] using hx
      unfold cells
      simp only [this, List.mem_map]
      exact ⟨0, hla, by rw [if_pos ⟨rfl, h0⟩]⟩

theorem cells_nodup {i : Nat} {s : ItemSet} {e : Item × List Nat} (hs : Sorted e.2) :
    ((cells g d lalr lr m i s e).map key).Nodup := by
  unfold cells
  split
  · split
    · split <;> simp
    · simp
  · rw [List.map_map]
    have : (key ∘ fun la => if la = 0 ∧ e.1.1 = 0 then (i, 0, Action.accept) else (i, la, Action.reduce e.1.1)) =
        fun la => (i, la) := by
      funext la
      simp only [Function.comp_apply]
      split
      · rename_i h; simp [key, h.1]
      · rfl
    rw [this]
    exact (List.nodup_map_iff_inj_on hs.nodup).mpr (by simp)

theorem wf_unique {s : ItemSet} (hw : WFSet s) {it : Item} {l l' : List Nat} (h : (it, l) ∈ s)
    (h' : (it, l') ∈ s) : l = l' := by
  have h1 := (mget_eq_some_iff hw.msorted).mpr h
  have h2 := (mget_eq_some_iff hw.msorted).mpr h'
  rw [h1] at h2; cases h2; rfl

/-- Cells are distinct exactly when no two items of a state call for one cell. -/
theorem flat_nodup {i : Nat} {s : ItemSet} (hw : WFSet s) :
    ((s.flatMap fun e => cells g d lalr lr m i s e).map key).Nodup ↔
    ∀ e ∈ s, ∀ e' ∈ s, ∀ x ∈ cells g d lalr lr m i s e, ∀ x' ∈ cells g d lalr lr m i s e', key x = key x' → e = e' := by
  rw [List.map_flatMap, List.nodup_flatMap]
  constructor
  · rintro ⟨_, hp⟩ e he e' he' x hx x' hx' hk
    by_contra hne
    have : Std.Symm (Function.onFun List.Disjoint fun a => List.map key (cells g d lalr lr m i s a)) :=
      ⟨fun a b hab x hx hx' => hab hx' hx⟩
    have hp' := hp.forall he he' hne
    exact hp' (List.mem_map_of_mem (f := key) hx) (hk ▸ List.mem_map_of_mem (f := key) hx')
  · intro hall
    refine ⟨fun e he => cells_nodup (hw.las e.1 e.2 he).2, ?_⟩
    have hn : s.Nodup := List.Nodup.of_map _ hw.keys.nodup
    refine List.Pairwise.imp_of_mem ?_ hn
    intro e e' he he' hne k hk hk'
    obtain ⟨x, hx, rfl⟩ := List.mem_map.mp hk
    obtain ⟨x', hx', hkk⟩ := List.mem_map.mp hk'
    exact hne (hall e he e' he' x hx x' hx' hkk.symm)

theorem allCells_nodup : ∀ (ss : List ItemSet) (i : Nat), (∀ s ∈ ss, WFSet s) →
    (((allCells g d lalr lr m i ss).map key).Nodup ↔
      ∀ n s, ss[n]? = some s → ∀ e ∈ s, ∀ e' ∈ s, ∀ x ∈ cells g d lalr lr m (i + n) s e,
        ∀ x' ∈ cells g d lalr lr m (i + n) s e', key x = key x' → e = e')
  | [], i, _ => by simp [allCells]
  | s :: ss, i, hw => by
    simp only [allCells, List.map_append]
    rw [List.nodup_append, flat_nodup (hw s (by simp)), allCells_nodup ss (i + 1) fun s hs => hw s (by simp [hs])]
    constructor
    · rintro ⟨h1, h2, _⟩ n s' hn
      cases n with
      | zero => simp only [List.getElem?_cons_zero, Option.some.injEq] at hn; subst hn; exact h1
      | succ n =>
        have := h2 n s' (by simpa using hn)
        rwa [Nat.add_right_comm, Nat.add_assoc] at this
    · intro hall
      refine ⟨hall 0 s rfl, fun n s' hn => ?_, ?_⟩
      · have := hall (n + 1) s' (by simpa using hn)
        rwa [← Nat.add_assoc, Nat.add_right_comm] at this
      · intro a ha b hb hab
        subst hab
        obtain ⟨x, hx, rfl⟩ := List.mem_map.mp ha
        obtain ⟨y, hy, hk⟩ := List.mem_map.mp hb
        obtain ⟨e, _, hx⟩ := List.mem_flatMap.mp hx
        obtain ⟨n, s', _, e', _, hy⟩ := (mem_allCells ss (i + 1) y).mp hy
        have h1 := cells_state hx
        have h2 := cells_state hy
        simp only [key, Prod.mk.injEq] at hk
        omega

/-! ## the goto table -/

theorem computeGoto_error {s : ItemSet} {x : Sym} {e : Err} (h : computeGoto g d lalr lr m s x = .error e) :
    ItemSet.goto g d s x = .error e := by
  unfold computeGoto at h
  cases hg : ItemSet.goto g d s x with
  | error e' => simpa [hg, bind, Except.bind] using h
  | ok r =>
    simp only [hg, bind, Except.bind, pure, Except.pure] at h
    split at h <;> cases h

theorem computeGoto_ok {s : ItemSet} {x : Sym} {r : ItemSet} (h : ItemSet.goto g d s x = .ok r) :
    computeGoto g d lalr lr m s x = .ok (lookup g d lalr lr m s x) := by
  cases hc : computeGoto g d lalr lr m s x with
  | error e => have := computeGoto_error hc; rw [h] at this; cases this
  | ok v => simp [lookup, hc]

theorem gotoRow_spec {i : Nat} {s : ItemSet} : ∀ (as : List Str) (t t' : Table Str Nat),
    gotoRow g d lalr lr m i s as t = .ok t' →
    (∀ a ∈ as, ∃ r, ItemSet.goto g d s (.nonTerm a) = .ok r) ∧
    ∀ i' a' j, t'.tryIndex i' a' = some j ↔
      (i' = i ∧ a' ∈ as ∧ lookup g d lalr lr m s (.nonTerm a') = some j) ∨
      (¬ (i' = i ∧ a' ∈ as ∧ (lookup g d lalr lr m s (.nonTerm a')).isSome) ∧ t.tryIndex i' a' = some j)
  | [], t, t', h => by
    simp only [gotoRow, Except.ok.injEq] at h
    subst h
    simp
  | a :: as, t, t', h => by
    have ih := gotoRow_spec (i := i) (s := s) as
    simp only [gotoRow] at h
    cases hg : ItemSet.goto g d s (.nonTerm a) with
    | error e => simp [hg, bind, Except.bind] at h
    | ok r =>
      simp only [hg, bind, Except.bind] at h
      -- the lookup
      have hcase : (lookup g d lalr lr m s (.nonTerm a) = none ∧ gotoRow g d lalr lr m i s as t = .ok t') ∨
          ∃ k, lookup g d lalr lr m s (.nonTerm a) = some k ∧
            gotoRow g d lalr lr m i s as (t.insert i a k) = .ok t' := by
        unfold lookup computeGoto
        simp only [hg, bind, Except.bind, pure, Except.pure]
        cases h1 : indexOf lr r with
        | some j =>
          simp only [h1] at h ⊢
          cases h2 : mget j m with
          | none => simp [h2] at h
          | some k => simp only [h2] at h ⊢; exact .inr ⟨k, rfl, h⟩
        | none =>
          simp only [h1] at h ⊢
          cases h2 : indexOf lalr r with
          | none => simp only [h2] at h ⊢; exact .inl ⟨trivial, h⟩
          | some k => simp only [h2] at h ⊢; exact .inr ⟨k, rfl, h⟩
      rcases hcase with ⟨hl, h⟩ | ⟨k, hl, h⟩
      · obtain ⟨k1, k2⟩ := ih t t' h
        refine ⟨?_, fun i' a' j => ?_⟩
        · intro b hb
          rcases List.mem_cons.mp hb with rfl | hb
          · exact ⟨r, hg⟩
          · exact k1 b hb
        · rw [k2]
          by_cases ha : a' = a
          · subst ha; simp [hl]
          · simp [ha]
      · obtain ⟨k1, k2⟩ := ih _ t' h
        refine ⟨?_, fun i' a' j => ?_⟩
        · intro b hb
          rcases List.mem_cons.mp hb with rfl | hb
          · exact ⟨r, hg⟩
          · exact k1 b hb
        · rw [k2, Table.tryIndex_insert]
          by_cases ha : a' = a
          · subst ha
            by_cases hi : i' = i
            · by_cases hm : a' ∈ as <;> simp [hl, hi, hm]
            · simp [hi]
          · simp [ha]

theorem gotoStates_spec : ∀ (ss : List ItemSet) (i : Nat) (t t' : Table Str Nat),
    (∀ i' a, i ≤ i' → t.tryIndex i' a = none) →
    gotoStates g d lalr lr m i ss t = .ok t' →
    (∀ s ∈ ss, ∀ a ∈ g.nonTerminals, ∃ r, ItemSet.goto g d s (.nonTerm a) = .ok r) ∧
    ∀ i' a j, t'.tryIndex i' a = some j ↔ t.tryIndex i' a = some j ∨
      ∃ n s, ss[n]? = some s ∧ i' = i + n ∧ a ∈ g.nonTerminals ∧
        lookup g d lalr lr m s (.nonTerm a) = some j
  | [], i, t, t', _, h => by
    simp only [gotoStates, Except.ok.injEq] at h
    subst h
    simp
  | s :: ss, i, t, t', hf, h => by
    simp only [gotoStates] at h
    cases h1 : gotoRow g d lalr lr m i s g.nonTerminals t with
    | error e => simp [h1, bind, Except.bind] at h
    | ok t1 =>
      simp only [h1, bind, Except.bind] at h
      obtain ⟨r1, r2⟩ := gotoRow_spec _ _ _ h1
      obtain ⟨k1, k2⟩ := gotoStates_spec ss (i + 1) t1 t' (by
        intro i' a hi
        cases hv : t1.tryIndex i' a with
        | none => rfl
        | some j =>
          rcases (r2 i' a j).mp hv with ⟨h', _⟩ | ⟨_, h'⟩
          · omega
          · rw [hf i' a (by omega)] at h'; cases h') h
      refine ⟨?_, fun i' a j => ?_⟩
      · intro s' hs'
        rcases List.mem_cons.mp hs' with rfl | hs'
        · exact r1
        · exact k1 s' hs'
      · rw [k2, r2]
        constructor
        · rintro ((⟨rfl, ha, hj⟩ | ⟨_, hj⟩) | ⟨n, s', hn, rfl, ha, hj⟩)
          · exact .inr ⟨0, s, rfl, rfl, ha, hj⟩
          · exact .inl hj
          · exact .inr ⟨n + 1, s', by simpa using hn, by omega, ha, hj⟩
        · rintro (hj | ⟨n, s', hn, rfl, ha, hj⟩)
          · refine .inl (.inr ⟨?_, hj⟩)
            rintro ⟨rfl, _⟩
            rw [hf i' a (Nat.le_refl _)] at hj; cases hj
          · cases n with
            | zero =>
              simp only [List.getElem?_cons_zero, Option.some.injEq] at hn
              subst hn
              exact .inl (.inl ⟨rfl, ha, hj⟩)
            | succ n => exact .inr ⟨n, s', by simpa using hn, by omega, ha, hj⟩

theorem indexOf_some {sets : List ItemSet} {s : ItemSet} {i : Nat} (h : indexOf sets s = some i) :
    sets[i]? = some s := by
  unfold indexOf at h
  rw [List.findIdx?_eq_some_iff_getElem] at h
  obtain ⟨hlt, he, _⟩ := h
  simp only [decide_eq_true_eq] at he
  rw [List.getElem?_eq_getElem hlt, he]

theorem indexOf_isSome {sets : List ItemSet} {s : ItemSet} : s ∈ sets ↔ ∃ i, indexOf sets s = some i := by
  constructor
  · intro h
    cases hi : indexOf sets s with
    | some i => exact ⟨i, rfl⟩
    | none =>
      unfold indexOf at hi
      rw [List.findIdx?_eq_none_iff] at hi
      have := hi s h
      simp at this
  · rintro ⟨i, h⟩
    exact List.mem_of_getElem? (indexOf_some h)

end

end Lalr
end Verif
