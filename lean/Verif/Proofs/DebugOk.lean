import Verif.Model.Debug
import Verif.Proofs.MergeAny

/-! # Hash collisions and the merge of cores -/

namespace Verif
open Spec ItemSet

namespace ItemSet

theorem union_sub {a b r : ItemSet} (hb : WFSet b) (h : union a b = .ok r) : ∀ it ∈ core a, it ∈ core b := by
  intro it hit
  obtain ⟨e, he, rfl⟩ := List.mem_map.mp hit
  have hf := mapRes_ok h
  have : ∃ e', (match mget e.1 b with
      | none => (Except.error .coreMismatch : Res (Item × List Nat))
      | some las => .ok (e.1, las.foldl (fun s x => oinsert x s) e.2)) = .ok e' := by
    clear h
    induction hf with
    | nil => cases he
    | cons h _ ih =>
      rcases List.mem_cons.mp he with rfl | he
      · exact ⟨_, h⟩
      · exact ih he (List.mem_map_of_mem he)
  obtain ⟨e', he'⟩ := this
  cases hm : mget e.1 b with
  | none => simp [hm] at he'
  | some las => exact List.mem_map.mpr ⟨_, (mget_eq_some_iff hb.msorted).mp hm, rfl⟩

theorem unionDebug_ok {a b r : ItemSet} (h : unionDebug a b = .ok r) : union a b = .ok r ∧ a.length = b.length := by
  unfold unionDebug at h
  split at h
  next e => exact ⟨h, e⟩
  next => cases h

end ItemSet

/-- Equal lengths and inclusion make sorted lists equal. -/
theorem core_eq_of_sub {a b : ItemSet} (ha : WFSet a) (hb : WFSet b) (hl : a.length = b.length)
    (hs : ∀ it ∈ core a, it ∈ core b) : core a = core b := by
  have na : (core a).Nodup := ha.keys.nodup
  have hp : (core a).Subperm (core b) := List.subperm_of_subset na hs
  have : (core a).Perm (core b) := hp.perm_of_length_le (by simp [core, hl])
  exact sorted_ext ha.keys hb.keys fun x => this.mem_iff

namespace Lalr

theorem mergeRest_sub {sets : List ItemSet} (hw : ∀ i, WFSet (sets.getD i [])) :
    ∀ {is : List Nat} {acc : ItemSet} {pres : List Bool} {r : ItemSet × List Bool}, mergeRest sets is acc pres = .ok r →
    core r.1 = core acc ∧ ∀ i ∈ is, ∀ it ∈ core acc, it ∈ core (sets.getD i []) := by
  intro is
  induction is with
  | nil => intro acc pres r h; cases h; exact ⟨rfl, by simp⟩
  | cons i is ih =>
    intro acc pres r h
    simp only [mergeRest, bind, Except.bind] at h
    cases ht : takeSet sets pres i with
    | error e => simp [ht] at h
    | ok p =>
      obtain ⟨s, pres'⟩ := p
      simp only [ht] at h
      obtain ⟨rfl, rfl⟩ := takeSet_ok ht
      cases hu : union acc (sets.getD i []) with
      | error e => simp only [hu] at h; cases h
      | ok u =>
        simp only [hu] at h
        obtain ⟨h1, h2⟩ := ih h
        have hc := union_core hu
        refine ⟨h1.trans hc, fun j hj => ?_⟩
        rcases List.mem_cons.mp hj with rfl | hj
        · exact union_sub (hw _) hu
        · rw [← hc]; exact h2 j hj

theorem mergeRestDebug_ok {sets : List ItemSet} :
    ∀ {is : List Nat} {acc : ItemSet} {pres : List Bool} {r : ItemSet × List Bool}, mergeRestDebug sets is acc pres = .ok r →
    mergeRest sets is acc pres = .ok r ∧ ∀ i ∈ is, acc.length = (sets.getD i []).length := by
  intro is
  induction is with
  | nil => intro acc pres r h; exact ⟨h, by simp⟩
  | cons i is ih =>
    intro acc pres r h
    simp only [mergeRestDebug, bind, Except.bind] at h
    cases ht : takeSet sets pres i with
    | error e => simp [ht] at h
    | ok p =>
      obtain ⟨s, pres'⟩ := p
      simp only [ht] at h
      obtain ⟨rfl, rfl⟩ := takeSet_ok ht
      cases hu : unionDebug acc (sets.getD i []) with
      | error e => simp only [hu] at h; cases h
      | ok u =>
        simp only [hu] at h
        obtain ⟨hu1, hu2⟩ := unionDebug_ok hu
        obtain ⟨h1, h2⟩ := ih h
        refine ⟨by simp only [mergeRest, bind, Except.bind, ht, hu1]; exact h1, fun j hj => ?_⟩
        rcases List.mem_cons.mp hj with rfl | hj
        · exact hu2
        · have := congrArg List.length (union_core hu1)
          simp only [core, List.length_map] at this
          rw [← this]; exact h2 j hj

theorem mergeGroup_sub {sets : List ItemSet} (hw : ∀ i, WFSet (sets.getD i [])) {i : Nat} {is : List Nat} {pres : List Bool}
    {r : ItemSet × List Bool} (h : mergeGroup sets (i :: is) pres = .ok r) :
    ∀ j ∈ i :: is, ∀ it ∈ core (sets.getD i []), it ∈ core (sets.getD j []) := by
  simp only [mergeGroup, bind, Except.bind] at h
  cases ht : takeSet sets pres i with
  | error e => simp [ht] at h
  | ok p =>
    obtain ⟨s, pres'⟩ := p
    simp only [ht] at h
    obtain ⟨rfl, rfl⟩ := takeSet_ok ht
    intro j hj
    rcases List.mem_cons.mp hj with rfl | hj
    · exact fun _ h => h
    · exact (mergeRest_sub hw h).2 j hj

theorem mergeGroupDebug_ok {sets : List ItemSet} {i : Nat} {is : List Nat} {pres : List Bool}
    {r : ItemSet × List Bool} (h : mergeGroupDebug sets (i :: is) pres = .ok r) :
    mergeGroup sets (i :: is) pres = .ok r ∧ ∀ j ∈ i :: is, (sets.getD i []).length = (sets.getD j []).length := by
  simp only [mergeGroupDebug, bind, Except.bind] at h
  cases ht : takeSet sets pres i with
  | error e => simp [ht] at h
  | ok p =>
    obtain ⟨s, pres'⟩ := p
    simp only [ht] at h
    obtain ⟨rfl, rfl⟩ := takeSet_ok ht
    obtain ⟨h1, h2⟩ := mergeRestDebug_ok h
    refine ⟨by simp only [mergeGroup, bind, Except.bind, ht]; exact h1, fun j hj => ?_⟩
    rcases List.mem_cons.mp hj with rfl | hj
    · rfl
    · exact h2 j hj

section
variable {H : Type}

theorem mergeLoop_sub {sets : List ItemSet} (hw : ∀ i, WFSet (sets.getD i [])) :
    ∀ {gs : List (H × List Nat)} {pres : List Bool} {res : List ItemSet} {m : List (Nat × Nat)}
      {r : List ItemSet × List (Nat × Nat)}, mergeLoop sets gs pres res m = .ok r →
    ∀ h i is, (h, i :: is) ∈ gs → ∀ j ∈ i :: is, ∀ it ∈ core (sets.getD i []), it ∈ core (sets.getD j []) := by
  intro gs
  induction gs with
  | nil => intro pres res m r _ h i is hm; cases hm
  | cons e gs ih =>
    intro pres res m r hl h i is hm
    obtain ⟨h', is'⟩ := e
    simp only [mergeLoop, bind, Except.bind] at hl
    cases hg : mergeGroup sets is' pres with
    | error e => simp [hg] at hl
    | ok p =>
      obtain ⟨s, pres'⟩ := p
      simp only [hg] at hl
      rcases List.mem_cons.mp hm with e | hm
      · cases e; exact mergeGroup_sub hw hg
      · exact ih hl h i is hm

theorem mergeLoopDebug_ok {sets : List ItemSet} :
    ∀ {gs : List (H × List Nat)} {pres : List Bool} {res : List ItemSet} {m : List (Nat × Nat)}
      {r : List ItemSet × List (Nat × Nat)}, mergeLoopDebug sets gs pres res m = .ok r →
    mergeLoop sets gs pres res m = .ok r ∧
      ∀ h i is, (h, i :: is) ∈ gs → ∀ j ∈ i :: is, (sets.getD i []).length = (sets.getD j []).length := by
  intro gs
  induction gs with
  | nil => intro pres res m r hl; exact ⟨hl, fun h i is hm => by cases hm⟩
  | cons e gs ih =>
    intro pres res m r hl
    obtain ⟨h', is'⟩ := e
    simp only [mergeLoopDebug, bind, Except.bind] at hl
    cases hg : mergeGroupDebug sets is' pres with
    | error e => simp [hg] at hl
    | ok p =>
      obtain ⟨s, pres'⟩ := p
      simp only [hg] at hl
      obtain ⟨h1, h2⟩ := ih hl
      cases is' with
      | nil => cases hg
      | cons i' is' =>
        obtain ⟨g1, g2⟩ := mergeGroupDebug_ok hg
        refine ⟨by simp only [mergeLoop, bind, Except.bind, g1]; exact h1, fun h i is hm => ?_⟩
        rcases List.mem_cons.mp hm with e | hm
        · cases e; exact g2
        · exact h2 h i is hm

theorem mergeRestDebug_of {sets : List ItemSet} :
    ∀ {is : List Nat} {acc : ItemSet} {pres : List Bool}, (∀ i ∈ is, core (sets.getD i []) = core acc) →
    mergeRestDebug sets is acc pres = mergeRest sets is acc pres := by
  intro is
  induction is with
  | nil => intros; rfl
  | cons i is ih =>
    intro acc pres hc
    simp only [mergeRestDebug, mergeRest, bind, Except.bind]
    cases ht : takeSet sets pres i with
    | error e => rfl
    | ok p =>
      obtain ⟨s, pres'⟩ := p
      obtain ⟨rfl, rfl⟩ := takeSet_ok ht
      have hl : acc.length = (sets.getD i []).length := by
        have := congrArg List.length (hc i (by simp))
        simpa [core] using this.symm
      simp only [unionDebug, hl, if_true]
      cases hu : union acc (sets.getD i []) with
      | error e => rfl
      | ok u => exact ih fun j hj => (hc j (by simp [hj])).trans (union_core hu).symm

theorem mergeLoopDebug_of {sets : List ItemSet} :
    ∀ {gs : List (H × List Nat)} {pres : List Bool} {res : List ItemSet} {m : List (Nat × Nat)},
    (∀ h is, (h, is) ∈ gs → ∀ i ∈ is, ∀ j ∈ is, core (sets.getD i []) = core (sets.getD j [])) →
    mergeLoopDebug sets gs pres res m = mergeLoop sets gs pres res m := by
  intro gs
  induction gs with
  | nil => intros; rfl
  | cons e gs ih =>
    intro pres res m hc
    obtain ⟨h, is⟩ := e
    have hg : mergeGroupDebug sets is pres = mergeGroup sets is pres := by
      cases is with
      | nil => rfl
      | cons i is =>
        simp only [mergeGroupDebug, mergeGroup, bind, Except.bind]
        cases ht : takeSet sets pres i with
        | error e => rfl
        | ok p =>
          obtain ⟨s, pres'⟩ := p
          obtain ⟨rfl, rfl⟩ := takeSet_ok ht
          exact mergeRestDebug_of fun j hj => hc h (i :: is) (by simp) j (by simp [hj]) i (by simp)
    simp only [mergeLoopDebug, mergeLoop, bind, Except.bind, hg]
    cases hm : mergeGroup sets is pres with
    | error e => rfl
    | ok p => exact ih fun h' is' hm' => hc h' is' (by simp [hm'])

variable [DecidableEq H] (hash : List Item → H)

/-- Two sets with one hash are in one group, after its first member. -/
theorem grouped {sets : List ItemSet} {s : ItemSet} (hs : s ∈ sets) :
    ∃ i is, (hash (core s), i :: is) ∈ groupLoop hash 0 sets [] ∧
      (∀ j ∈ i :: is, sets.getD j [] ∈ sets ∧ hash (core (sets.getD j [])) = hash (core s)) ∧
      ∀ t ∈ sets, hash (core t) = hash (core s) → ∃ j ∈ i :: is, sets.getD j [] = t := by
  rw [groupLoop_eq]
  have hm : (hash (core s), idxs (hash (core s)) (sets.map fun s => hash (core s))) ∈ canon (sets.map fun s => hash (core s)) := by
    unfold canon
    exact List.mem_map.mpr ⟨_, mem_firsts.mpr (List.mem_map.mpr ⟨s, hs, rfl⟩), rfl⟩
  have hall : ∀ t ∈ sets, hash (core t) = hash (core s) →
      ∃ j ∈ idxs (hash (core s)) (sets.map fun s => hash (core s)), sets.getD j [] = t := by
    intro t ht he
    obtain ⟨j, hj⟩ := List.mem_iff_getElem?.mp ht
    refine ⟨j, mem_idxs.mpr ?_, by simp [List.getD_eq_getElem?_getD, hj]⟩
    simp [hj, he]
  have hin : ∀ j ∈ idxs (hash (core s)) (sets.map fun s => hash (core s)),
      sets.getD j [] ∈ sets ∧ hash (core (sets.getD j [])) = hash (core s) := by
    intro j hj
    have := mem_idxs.mp hj
    rw [List.getElem?_map] at this
    obtain ⟨t, ht, he⟩ := Option.map_eq_some_iff.mp this
    rw [List.getD_eq_getElem?_getD, ht]
    exact ⟨List.mem_of_getElem? ht, he⟩
  cases hi : idxs (hash (core s)) (sets.map fun s => hash (core s)) with
  | nil =>
    obtain ⟨j, hj, _⟩ := hall s hs rfl
    rw [hi] at hj; cases hj
  | cons i is => exact ⟨i, is, hi ▸ hm, hi ▸ hin, hi ▸ hall⟩

/-- A successful merge puts sets together only with a first set whose core is part of theirs. -/
theorem mergeCores_sub {sets : List ItemSet} (hw : ∀ s ∈ sets, WFSet s) {r : List ItemSet × List (Nat × Nat)}
    (h : mergeCores hash sets = .ok r) {s : ItemSet} (hs : s ∈ sets) :
    ∃ f ∈ sets, hash (core f) = hash (core s) ∧ ∀ t ∈ sets, hash (core t) = hash (core s) → ∀ it ∈ core f, it ∈ core t := by
  obtain ⟨i, is, h1, h2, h4⟩ := grouped hash hs
  have h3 := mergeLoop_sub (wf_getD hw) h _ i is h1
  refine ⟨sets.getD i [], (h2 i (by simp)).1, (h2 i (by simp)).2, fun t ht he => ?_⟩
  obtain ⟨j, hj, rfl⟩ := h4 t ht he
  exact h3 j hj

/-- In a debug build a successful merge shows that there was no collision. -/
theorem mergeCoresDebug_ok {sets : List ItemSet} (hw : ∀ s ∈ sets, WFSet s) {r : List ItemSet × List (Nat × Nat)}
    (h : mergeCoresDebug hash sets = .ok r) : mergeCores hash sets = .ok r ∧ CollisionFree hash sets := by
  obtain ⟨h1, h2⟩ := mergeLoopDebug_ok h
  refine ⟨h1, fun s hs t ht he => ?_⟩
  obtain ⟨i, is, k1, k2, k3⟩ := grouped hash hs
  have h3 := mergeLoop_sub (wf_getD hw) h1 _ i is k1
  have h4 := h2 _ i is k1
  have key : ∀ j ∈ i :: is, core (sets.getD i []) = core (sets.getD j []) := fun j hj =>
    core_eq_of_sub (wf_getD hw i) (wf_getD hw j) (h4 j hj) (h3 j hj)
  obtain ⟨a, ha, rfl⟩ := k3 s hs rfl
  obtain ⟨b, hb, rfl⟩ := k3 t ht he.symm
  exact (key a ha).symm.trans (key b hb)

/-- Without collisions the assertion holds. -/
theorem mergeCoresDebug_of {sets : List ItemSet} (hc : CollisionFree hash sets) :
    mergeCoresDebug hash sets = mergeCores hash sets := by
  refine mergeLoopDebug_of fun h is hm i hi j hj => ?_
  rw [groupLoop_eq] at hm
  obtain ⟨h', _, e⟩ := List.mem_map.mp hm
  cases e
  have key : ∀ j ∈ idxs h (sets.map fun s => hash (core s)), sets.getD j [] ∈ sets ∧ hash (core (sets.getD j [])) = h := by
    intro j hj
    have := mem_idxs.mp hj
    rw [List.getElem?_map] at this
    obtain ⟨t, ht, he⟩ := Option.map_eq_some_iff.mp this
    rw [List.getD_eq_getElem?_getD, ht]
    exact ⟨List.mem_of_getElem? ht, he⟩
  exact hc _ (key i hi).1 _ (key j hj).1 ((key i hi).2.trans (key j hj).2.symm)

end
end Lalr
end Verif
