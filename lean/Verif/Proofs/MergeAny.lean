import Verif.Proofs.MergeOk

/-! # Merging with an arbitrary hash

What a successful merge has done when cores may collide. -/

namespace Verif
open Spec ItemSet

namespace ItemSet

theorem mem_core {s : ItemSet} (h : WFSet s) {it : Item} : it ∈ core s ↔ ∃ la, Has s it la := by
  constructor
  · intro hm
    obtain ⟨⟨it', l⟩, hm', rfl⟩ := List.mem_map.mp hm
    obtain ⟨la, hla⟩ := List.exists_mem_of_ne_nil l (h.las it' l hm').1
    exact ⟨la, l, hm', hla⟩
  · rintro ⟨la, l, hm, _⟩
    exact List.mem_map_of_mem (f := Prod.fst) hm

theorem union_core {a b r : ItemSet} (h : union a b = .ok r) : core r = core a := by
  have hf := mapRes_ok h
  clear h
  induction hf with
  | nil => rfl
  | @cons e e' a r h _ ih =>
    cases hm : mget e.1 b with
    | none => simp [hm] at h
    | some las =>
      simp only [hm, Except.ok.injEq] at h
      subst h
      simp only [core, List.map_cons] at ih ⊢
      rw [ih]

theorem union_any {a b r : ItemSet} (ha : WFSet a) (hb : WFSet b) (h : union a b = .ok r) :
    WFSet r ∧ (∀ it ∈ core a, it ∈ core b) ∧ ∀ it la, Has r it la ↔ Has a it la ∨ it ∈ core a ∧ Has b it la := by
  have hcore := union_core h
  have hmem := mapRes_mem h
  have hsub : ∀ it ∈ core a, it ∈ core b := by
    intro it hit
    obtain ⟨e, he, rfl⟩ := List.mem_map.mp hit
    have hf := mapRes_ok h
    have : ∃ e', (match mget e.1 b with
        | none => (Except.error .coreMismatch : Res (Item × List Nat))
        | some las => .ok (e.1, las.foldl (fun s x => oinsert x s) e.2)) = .ok e' := by
      clear h hmem hcore hit ha
      induction hf with
      | nil => cases he
      | cons h _ ih =>
        rcases List.mem_cons.mp he with rfl | he
        · exact ⟨_, h⟩
        · exact ih he
    obtain ⟨e', he'⟩ := this
    cases hm : mget e.1 b with
    | none => simp [hm] at he'
    | some las => exact List.mem_map.mpr ⟨_, (mget_eq_some_iff hb.msorted).mp hm, rfl⟩
  refine ⟨⟨by show Sorted (core r); rw [hcore]; exact ha.keys, fun it l hm => ?_⟩, hsub, fun it la => ⟨?_, ?_⟩⟩
  · obtain ⟨e, he, hv⟩ := (hmem _).mp hm
    cases hm : mget e.1 b with
    | none => simp [hm] at hv
    | some las =>
      simp only [hm, Except.ok.injEq, Prod.mk.injEq] at hv
      obtain ⟨h1, h2⟩ := ha.las e.1 e.2 he
      obtain ⟨k1, k2⟩ := Lalr.foldl_oinsert_mem las h2
      rw [← hv.2]
      refine ⟨?_, k1⟩
      obtain ⟨x, hx⟩ := List.exists_mem_of_ne_nil _ h1
      exact List.ne_nil_of_mem ((k2 x).mpr (.inl hx))
  · rintro ⟨l, hm, hla⟩
    obtain ⟨e, he, hv⟩ := (hmem _).mp hm
    cases hm : mget e.1 b with
    | none => simp [hm] at hv
    | some las =>
      simp only [hm, Except.ok.injEq, Prod.mk.injEq] at hv
      rw [← hv.2] at hla
      rcases ((Lalr.foldl_oinsert_mem las (ha.las e.1 e.2 he).2).2 la).mp hla with h | h
      · exact .inl ⟨e.2, hv.1 ▸ he, h⟩
      · exact .inr ⟨hv.1 ▸ List.mem_map_of_mem (f := Prod.fst) he, (has_iff hb).mpr ⟨las, hv.1 ▸ hm, h⟩⟩
  · intro h
    have hk : it ∈ core a := by
      rcases h with ⟨l, hm, _⟩ | ⟨h, _⟩
      · exact List.mem_map_of_mem (f := Prod.fst) hm
      · exact h
    obtain ⟨l, hl⟩ := Lalr.mget_some_of_mem ha hk
    obtain ⟨las, hlas⟩ := Lalr.mget_some_of_mem hb (hsub it hk)
    have hin := (mget_eq_some_iff ha.msorted).mp hl
    refine ⟨las.foldl (fun s x => oinsert x s) l, (hmem _).mpr ⟨(it, l), hin, by simp only [hlas]⟩, ?_⟩
    rw [(Lalr.foldl_oinsert_mem las (ha.las it l hin).2).2]
    rw [has_iff ha, has_iff hb, hl, hlas] at h
    simpa [hk] using h

end ItemSet

namespace Lalr

theorem takeSet_ok {sets : List ItemSet} {pres pres' : List Bool} {i : Nat} {s : ItemSet}
    (h : takeSet sets pres i = .ok (s, pres')) : s = sets.getD i [] ∧ pres' = pres.set i false := by
  unfold takeSet at h
  split at h
  · cases h; exact ⟨rfl, rfl⟩
  · cases h

theorem mergeRest_any {sets : List ItemSet} (hw : ∀ i, WFSet (sets.getD i [])) :
    ∀ {is : List Nat} {acc : ItemSet} {pres : List Bool} {r : ItemSet × List Bool}, WFSet acc →
    mergeRest sets is acc pres = .ok r → WFSet r.1 ∧ core r.1 = core acc ∧
      (∀ i ∈ is, ∀ it ∈ core acc, it ∈ core (sets.getD i [])) ∧
      ∀ it la, Has r.1 it la ↔ Has acc it la ∨ it ∈ core acc ∧ ∃ i ∈ is, Has (sets.getD i []) it la := by
  intro is
  induction is with
  | nil => intro acc pres r ha h; cases h; exact ⟨ha, rfl, by simp, by simp⟩
  | cons i is ih =>
    intro acc pres r ha h
    simp only [mergeRest, bind, Except.bind] at h
    cases ht : takeSet sets pres i with
    | error e => simp [ht] at h
    | ok p =>
      obtain ⟨s, pres'⟩ := p
      simp only [ht] at h
      obtain ⟨rfl, rfl⟩ := takeSet_ok ht
      cases hu : union acc (sets.getD i []) with
      | error e => simp only [hu] at h; cases h
      | ok u =>
        simp only [hu] at h
        obtain ⟨u1, u2, u3⟩ := union_any ha (hw i) hu
        obtain ⟨h1, h2, h3, h4⟩ := ih u1 h
        have hc := union_core hu
        rw [hc] at h2 h3 h4
        refine ⟨h1, h2, fun j hj => ?_, fun it la => ?_⟩
        · rcases List.mem_cons.mp hj with rfl | hj
          · exact u2
          · exact h3 j hj
        · rw [h4, u3]
          simp only [List.mem_cons, exists_eq_or_imp]
          tauto

theorem mergeGroup_any {sets : List ItemSet} (hw : ∀ i, WFSet (sets.getD i [])) {i : Nat} {is : List Nat} {pres : List Bool}
    {r : ItemSet × List Bool} (h : mergeGroup sets (i :: is) pres = .ok r) :
    WFSet r.1 ∧ core r.1 = core (sets.getD i []) ∧
      (∀ j ∈ i :: is, ∀ it ∈ core r.1, it ∈ core (sets.getD j [])) ∧
      ∀ it la, Has r.1 it la ↔ it ∈ core r.1 ∧ ∃ j ∈ i :: is, Has (sets.getD j []) it la := by
  simp only [mergeGroup, bind, Except.bind] at h
  cases ht : takeSet sets pres i with
  | error e => simp [ht] at h
  | ok p =>
    obtain ⟨s, pres'⟩ := p
    simp only [ht] at h
    obtain ⟨rfl, rfl⟩ := takeSet_ok ht
    obtain ⟨h1, h2, h3, h4⟩ := mergeRest_any hw (hw i) h
    refine ⟨h1, h2, fun j hj => ?_, fun it la => ?_⟩
    · rw [h2]
      rcases List.mem_cons.mp hj with rfl | hj
      · exact fun _ h => h
      · exact h3 j hj
    · rw [h4, h2]
      simp only [List.mem_cons, exists_eq_or_imp]
      constructor
      · rintro (h | ⟨h, i, hi, hh⟩)
        · exact ⟨(mem_core (hw i)).mpr ⟨la, h⟩, .inl h⟩
        · exact ⟨h, .inr ⟨i, hi, hh⟩⟩
      · rintro ⟨h, h' | h'⟩
        · exact .inl h'
        · exact .inr ⟨h, h'⟩

theorem wf_getD {sets : List ItemSet} (hw : ∀ s ∈ sets, WFSet s) (i : Nat) : WFSet (sets.getD i []) := by
  rw [List.getD_eq_getElem?_getD]
  cases h : sets[i]? with
  | none => exact ⟨by simp [Sorted], by simp⟩
  | some s => exact hw s (List.mem_of_getElem? h)

section
variable {H : Type} [DecidableEq H] (hash : List Item → H)

/-- The states merged so far. -/
structure AInv (sets : List ItemSet) (done : List H) (res : List ItemSet) (m : List (Nat × Nat)) : Prop where
  keys : res.map (fun s => hash (core s)) = done
  wf : ∀ s ∈ res, WFSet s
  first : ∀ s ∈ res, ∃ (i : Nat) (f : ItemSet), sets[i]? = some f ∧ core f = core s ∧
    ∀ (j : Nat) (t : ItemSet), sets[j]? = some t → hash (core t) = hash (core s) → i ≤ j
  sub : ∀ s ∈ res, ∀ t ∈ sets, hash (core t) = hash (core s) → ∀ it ∈ core s, it ∈ core t
  has : ∀ s ∈ res, ∀ it la, Has s it la ↔ it ∈ core s ∧ ∃ t ∈ sets, hash (core t) = hash (core s) ∧ Has t it la
  sorted : MSorted m
  map : ∀ i k, mget i m = some k ↔ ∃ s h, sets[i]? = some s ∧ hash (core s) = h ∧ done[k]? = some h

theorem idxs_head {h : H} {ks : List H} {i : Nat} {is : List Nat} (hi : idxs h ks = i :: is) : ∀ j ∈ i :: is, i ≤ j := by
  have hp : (idxs h ks).Pairwise (· < ·) := List.Pairwise.filter _ List.pairwise_lt_range
  rw [hi, List.pairwise_cons] at hp
  intro j hj
  rcases List.mem_cons.mp hj with rfl | hj
  · exact Nat.le_refl _
  · exact Nat.le_of_lt (hp.1 j hj)

theorem mergeLoop_any {sets : List ItemSet} (hw : ∀ s ∈ sets, WFSet s) :
    ∀ (rest done : List H) (pres : List Bool) (res : List ItemSet) (m : List (Nat × Nat)) (res' : List ItemSet)
      (m' : List (Nat × Nat)),
    done ++ rest = firsts (sets.map fun s => hash (core s)) →
    AInv hash sets done res m →
    mergeLoop sets (rest.map fun h => (h, idxs h (sets.map fun s => hash (core s)))) pres res m = .ok (res', m') →
    AInv hash sets (firsts (sets.map fun s => hash (core s))) res' m' := by
  intro rest
  induction rest with
  | nil =>
    intro done pres res m res' m' hd hinv h
    simp only [List.append_nil] at hd
    subst hd
    cases h
    exact hinv
  | cons h rest ih =>
    intro done pres res m res' m' hd hinv hl
    have hidx : ∀ i, i ∈ idxs h (sets.map fun s => hash (core s)) ↔
        ∃ s, sets[i]? = some s ∧ hash (core s) = h := by
      intro i
      rw [mem_idxs, List.getElem?_map, Option.map_eq_some_iff]
    have hnd : h ∉ done := by
      have := nodup_firsts (sets.map fun s => hash (core s))
      rw [← hd, List.nodup_append] at this
      intro hm
      exact this.2.2 h hm h (by simp) rfl
    have hin : h ∈ sets.map fun s => hash (core s) := by
      rw [← mem_firsts, ← hd]; simp
    have hne : idxs h (sets.map fun s => hash (core s)) ≠ [] := by
      obtain ⟨s, hs, rfl⟩ := List.mem_map.mp hin
      obtain ⟨i, hi⟩ := List.getElem?_of_mem hs
      exact List.ne_nil_of_mem ((hidx i).mpr ⟨s, hi, rfl⟩)
    obtain ⟨i0, is0, hi0⟩ := List.exists_cons_of_ne_nil hne
    simp only [List.map_cons, mergeLoop, bind, Except.bind] at hl
    cases hg : mergeGroup sets (idxs h (sets.map fun s => hash (core s))) pres with
    | error e => simp [hg] at hl
    | ok p =>
      obtain ⟨r, pres'⟩ := p
      simp only [hg] at hl
      have hg' := hg
      rw [hi0] at hg'
      obtain ⟨g1, g2, g3, g4⟩ := mergeGroup_any (wf_getD hw) hg'
      simp only [← hi0] at g3 g4
      obtain ⟨f0, hf0, he0⟩ := (hidx i0).mp (by rw [hi0]; simp)
      have hget : ∀ {i s}, sets[i]? = some s → sets.getD i [] = s := by
        intro i s hs; rw [List.getD_eq_getElem?_getD, hs]; rfl
      have hrc : core r = core f0 := by rw [← hget hf0]; exact g2
      have hrh : hash (core r) = h := by rw [hrc, he0]
      have hnr : r ∉ res := by
        intro hm
        refine hnd ?_
        rw [← hinv.keys, ← hrh]
        exact List.mem_map_of_mem (f := fun s => hash (core s)) hm
      have hii : iinsert r res = res ++ [r] := by simp [iinsert, hnr]
      rw [hii] at hl
      have hlen : res.length = done.length := by rw [← hinv.keys, List.length_map]
      obtain ⟨m1, m2⟩ := foldl_minsert res.length (idxs h (sets.map fun s => hash (core s))) m hinv.sorted
      refine ih (done ++ [h]) pres' (res ++ [r]) _ res' m' (by simpa using hd) ?_ hl
      have hmem : ∀ {P : ItemSet → Prop}, (∀ s ∈ res, P s) → P r → ∀ s ∈ res ++ [r], P s := by
        intro P h1 h2 s hs
        rcases List.mem_append.mp hs with hs | hs
        · exact h1 s hs
        · simp only [List.mem_singleton] at hs; rw [hs]; exact h2
      refine ⟨by simp [hinv.keys, hrh], hmem hinv.wf g1, hmem hinv.first ?_, hmem hinv.sub ?_, hmem hinv.has ?_, m1, ?_⟩
      · refine ⟨i0, f0, hf0, hrc.symm, fun j t ht he => ?_⟩
        refine idxs_head hi0 j ?_
        rw [← hi0, hidx]
        exact ⟨t, ht, he.trans hrh⟩
      · intro t ht he it hit
        obtain ⟨j, hj⟩ := List.getElem?_of_mem ht
        have := g3 j ((hidx j).mpr ⟨t, hj, he.trans hrh⟩) it hit
        rwa [hget hj] at this
      · intro it la
        rw [g4]
        refine and_congr_right fun _ => ?_
        constructor
        · rintro ⟨j, hj, hh⟩
          obtain ⟨t, ht, he⟩ := (hidx j).mp hj
          rw [hget ht] at hh
          exact ⟨t, List.mem_of_getElem? ht, he.trans hrh.symm, hh⟩
        · rintro ⟨t, ht, he, hh⟩
          obtain ⟨j, hj⟩ := List.getElem?_of_mem ht
          exact ⟨j, (hidx j).mpr ⟨t, hj, he.trans hrh⟩, by rw [hget hj]; exact hh⟩
      · intro i k
        rw [m2]
        by_cases hi : i ∈ idxs h (sets.map fun s => hash (core s))
        · rw [if_pos hi]
          obtain ⟨s, hs, he⟩ := (hidx i).mp hi
          constructor
          · intro hk
            simp only [Option.some.injEq] at hk
            refine ⟨s, h, hs, he, ?_⟩
            rw [← hk, hlen]; simp
          · rintro ⟨s', h', hs', he', hk⟩
            rw [hs] at hs'; cases hs'
            rw [he] at he'; subst he'
            by_cases hkl : k < done.length
            · rw [List.getElem?_append_left hkl] at hk
              exact absurd (List.mem_of_getElem? hk) hnd
            · have := (List.getElem?_eq_some_iff.mp hk).1
              simp only [List.length_append, List.length_singleton] at this
              have : k = done.length := by omega
              rw [hlen, this]
        · rw [if_neg hi, hinv.map]
          constructor
          · rintro ⟨s, h', hs, he, hk⟩
            refine ⟨s, h', hs, he, ?_⟩
            rw [List.getElem?_append_left (List.getElem?_eq_some_iff.mp hk).1]; exact hk
          · rintro ⟨s, h', hs, he, hk⟩
            refine ⟨s, h', hs, he, ?_⟩
            by_cases hkl : k < done.length
            · rwa [List.getElem?_append_left hkl] at hk
            · have := (List.getElem?_eq_some_iff.mp hk).1
              simp only [List.length_append, List.length_singleton] at this
              have hkd : k = done.length := by omega
              rw [hkd] at hk
              simp only [List.getElem?_concat_length, Option.some.injEq] at hk
              exact absurd ((hidx i).mpr ⟨s, hs, by rw [he, hk]⟩) hi

theorem mergeCores_any {sets : List ItemSet} (hw : ∀ s ∈ sets, WFSet s) {res : List ItemSet} {m : List (Nat × Nat)}
    (h : mergeCores hash sets = .ok (res, m)) : AInv hash sets (firsts (sets.map fun s => hash (core s))) res m := by
  unfold mergeCores at h
  rw [groupLoop_eq] at h
  refine mergeLoop_any hash hw (firsts (sets.map fun s => hash (core s))) [] _ [] [] res m (by simp) ?_ h
  exact ⟨rfl, by simp, by simp, by simp, by simp, by simp [MSorted, Sorted], by simp [mget]⟩

end
end Lalr
end Verif
