import Verif.Proofs.ItemsOk

/-! `merge_cores`. -/

namespace Verif
open Spec Grammar

namespace Spec
variable {α β : Type} [DecidableEq α] [DecidableEq β]

theorem firsts_snoc (l : List α) (a : α) :
    firsts (l ++ [a]) = if a ∈ firsts l then firsts l else firsts l ++ [a] := by
  unfold firsts; rw [List.foldl_append]; rfl

theorem mem_firsts {l : List α} {a : α} : a ∈ firsts l ↔ a ∈ l := by
  induction l using List.reverseRecOn with
  | nil => simp [firsts]
  | append_singleton l b ih =>
    rw [firsts_snoc]
    split <;> grind

theorem nodup_firsts (l : List α) : (firsts l).Nodup := by
  induction l using List.reverseRecOn with
  | nil => simp [firsts]
  | append_singleton l b ih =>
    rw [firsts_snoc]
    split
    · exact ih
    · rw [List.nodup_append]
      refine ⟨ih, by simp, ?_⟩
      grind

theorem firsts_map {f : α → β} (l : List α) (h : ∀ a ∈ l, ∀ b ∈ l, f a = f b → a = b) :
    firsts (l.map f) = (firsts l).map f := by
  induction l using List.reverseRecOn with
  | nil => simp [firsts]
  | append_singleton l b ih =>
    have ih := ih fun a ha c hc => h a (by simp [ha]) c (by simp [hc])
    rw [List.map_append, List.map_singleton, firsts_snoc, firsts_snoc, ih]
    have : f b ∈ List.map f (firsts l) ↔ b ∈ firsts l := by
      rw [List.mem_map]
      constructor
      · rintro ⟨a, ha, he⟩
        have := h a (by simp [mem_firsts.mp ha]) b (by simp) he
        rwa [← this]
      · intro hb; exact ⟨b, hb, rfl⟩
    by_cases hb : b ∈ firsts l
    · simp [hb, this]
    · rw [if_neg (fun h => hb (this.mp h)), if_neg hb]
      simp

omit [DecidableEq α] [DecidableEq β] in
theorem map_inj_on {f : α → β} : ∀ {l l' : List α}, l.map f = l'.map f →
    (∀ a ∈ l, ∀ b ∈ l', f a = f b → a = b) → l = l'
  | [], [], _, _ => rfl
  | [], _ :: _, h, _ => by simp at h
  | _ :: _, [], h, _ => by simp at h
  | a :: l, b :: l', h, hi => by
    simp only [List.map_cons, List.cons.injEq] at h
    rw [hi a (by simp) b (by simp) h.1, map_inj_on h.2 fun x hx y hy => hi x (by simp [hx]) y (by simp [hy])]
end Spec

namespace Lalr
open ItemSet

/-! ## grouping -/

section
variable {H : Type} [DecidableEq H]

/-- Positions of `h`. -/
def idxs (h : H) (ks : List H) : List Nat := (List.range ks.length).filter fun i => decide (ks[i]? = some h)

/-- The finished map of indices. -/
def canon (ks : List H) : List (H × List Nat) := (firsts ks).map fun h => (h, idxs h ks)

theorem mem_idxs {h : H} {ks : List H} {i : Nat} : i ∈ idxs h ks ↔ ks[i]? = some h := by
  simp only [idxs, List.mem_filter, List.mem_range, decide_eq_true_eq]
  constructor
  · exact fun h => h.2
  · intro h; exact ⟨(List.getElem?_eq_some_iff.mp h).1, h⟩

theorem idxs_nodup (h : H) (ks : List H) : (idxs h ks).Nodup := List.Nodup.filter _ List.nodup_range

theorem idxs_snoc (h k : H) (ks : List H) :
    idxs h (ks ++ [k]) = if k = h then idxs h ks ++ [ks.length] else idxs h ks := by
  unfold idxs
  rw [List.length_append, List.length_singleton, List.range_succ, List.filter_append]
  have : (List.range ks.length).filter (fun i => decide ((ks ++ [k])[i]? = some h)) =
      (List.range ks.length).filter (fun i => decide (ks[i]? = some h)) := by
    apply List.filter_congr
    intro i hi
    rw [List.mem_range] at hi
    rw [List.getElem?_append_left hi]
  rw [this]
  by_cases hk : k = h <;> simp [hk]

theorem groupAdd_canon (h : H) (n : Nat) (f : H → List Nat) : ∀ (L : List H), L.Nodup →
    groupAdd h n (L.map fun x => (x, f x)) =
      if h ∈ L then L.map (fun x => (x, if h = x then f x ++ [n] else f x))
      else L.map (fun x => (x, f x)) ++ [(h, [n])] := by
  intro L
  induction L with
  | nil => intro _; simp [groupAdd]
  | cons a L ih =>
    intro hn
    rw [List.nodup_cons] at hn
    have ih := ih hn.2
    simp only [List.map_cons, groupAdd]
    by_cases ha : h = a
    · subst ha
      simp only [if_true, List.mem_cons, true_or, List.cons.injEq, true_and]
      apply List.map_congr_left
      intro x hx
      have : h ≠ x := by rintro rfl; exact hn.1 hx
      simp [this]
    · rw [if_neg ha, ih]
      by_cases hm : h ∈ L <;> simp [ha, hm]

theorem groupAdd_snoc (k : H) (ks : List H) : groupAdd k ks.length (canon ks) = canon (ks ++ [k]) := by
  unfold canon
  rw [groupAdd_canon k ks.length (fun h => idxs h ks) _ (nodup_firsts ks), firsts_snoc]
  by_cases hk : k ∈ firsts ks
  · simp only [hk, if_true]
    apply List.map_congr_left
    intro x _
    rw [idxs_snoc]
  · simp only [hk, if_false, List.map_append, List.map_singleton]
    congr 1
    · apply List.map_congr_left
      intro x hx
      have : k ≠ x := by rintro rfl; exact hk hx
      rw [idxs_snoc, if_neg this]
    · rw [idxs_snoc, if_pos rfl]
      have : idxs k ks = [] := by
        rw [List.eq_nil_iff_forall_not_mem]
        intro i hi
        exact hk (mem_firsts.mpr (List.mem_of_getElem? (mem_idxs.mp hi)))
      rw [this]; rfl

theorem groupLoop_canon (hash : List Item → H) : ∀ (ss : List ItemSet) (ks : List H),
    groupLoop hash ks.length ss (canon ks) = canon (ks ++ ss.map fun s => hash (core s))
  | [], ks => by simp [groupLoop]
  | s :: ss, ks => by
    simp only [groupLoop]
    rw [groupAdd_snoc]
    have := groupLoop_canon hash ss (ks ++ [hash (core s)])
    simp only [List.length_append, List.length_singleton] at this
    rw [this]
    simp

theorem groupLoop_eq (hash : List Item → H) (ss : List ItemSet) :
    groupLoop hash 0 ss [] = canon (ss.map fun s => hash (core s)) := by
  have := groupLoop_canon hash ss []
  simpa [canon, firsts] using this
end

/-! ## union -/

theorem foldl_oinsert_mem {l : List Nat} (las : List Nat) (hl : Sorted l) :
    Sorted (las.foldl (fun s x => oinsert x s) l) ∧
    ∀ x, x ∈ las.foldl (fun s x => oinsert x s) l ↔ x ∈ l ∨ x ∈ las := by
  induction las generalizing l with
  | nil => simp [hl]
  | cons a las ih =>
    obtain ⟨h1, h2⟩ := ih (sorted_oinsert hl (a := a))
    refine ⟨h1, fun x => (h2 x).trans ?_⟩
    rw [mem_oinsert, List.mem_cons]
    tauto

theorem mget_some_of_mem {s : ItemSet} (h : WFSet s) {it : Item} (hm : it ∈ core s) :
    ∃ l, mget it s = some l := by
  obtain ⟨⟨it', l⟩, hm', rfl⟩ := List.mem_map.mp hm
  exact ⟨l, (mget_eq_some_iff h.msorted).mpr hm'⟩

theorem union_spec {a b : ItemSet} (ha : WFSet a) (hb : WFSet b) (hc : core a = core b) :
    ∃ r, union a b = .ok r ∧ WFSet r ∧ core r = core a ∧
      ∀ it la, Has r it la ↔ Has a it la ∨ Has b it la := by
  have hok : ∃ r, union a b = .ok r := by
    refine mapRes_of_forall fun e he => ?_
    have : e.1 ∈ core b := by rw [← hc]; exact List.mem_map_of_mem he
    obtain ⟨l, hl⟩ := mget_some_of_mem hb this
    exact ⟨(e.1, l.foldl (fun s x => oinsert x s) e.2), by simp only [hl]⟩
  obtain ⟨r, hr⟩ := hok
  have hf := mapRes_ok hr
  have hcore : core r = core a := by
    clear hr
    have : ∀ {a r : ItemSet}, List.Forall₂ (fun (e : Item × List Nat) e' => (match mget e.1 b with
        | none => (Except.error .coreMismatch : Res (Item × List Nat))
        | some las => .ok (e.1, las.foldl (fun s x => oinsert x s) e.2)) = .ok e') a r → core r = core a := by
      intro a r hf
      induction hf with
      | nil => rfl
      | @cons e e' a r h _ ih =>
        cases hm : mget e.1 b with
        | none => simp [hm] at h
        | some las =>
          simp only [hm, Except.ok.injEq] at h
          subst h
          simp only [core, List.map_cons] at ih ⊢
          rw [ih]
    exact this hf
  have hmem := mapRes_mem hr
  have hwf : WFSet r := by
    refine ⟨by show Sorted (core r); rw [hcore]; exact ha.keys, fun it l hm => ?_⟩
    obtain ⟨e, he, hv⟩ := (hmem _).mp hm
    cases hm : mget e.1 b with
    | none => simp [hm] at hv
    | some las =>
      simp only [hm, Except.ok.injEq, Prod.mk.injEq] at hv
      obtain ⟨h1, h2⟩ := ha.las e.1 e.2 he
      obtain ⟨k1, k2⟩ := foldl_oinsert_mem las h2
      rw [← hv.2]
      refine ⟨?_, k1⟩
      obtain ⟨x, hx⟩ := List.exists_mem_of_ne_nil _ h1
      exact List.ne_nil_of_mem ((k2 x).mpr (.inl hx))
  refine ⟨r, hr, hwf, hcore, fun it la => ⟨?_, ?_⟩⟩
  · rintro ⟨l, hm, hla⟩
    obtain ⟨e, he, hv⟩ := (hmem _).mp hm
    cases hm : mget e.1 b with
    | none => simp [hm] at hv
    | some las =>
      simp only [hm, Except.ok.injEq, Prod.mk.injEq] at hv
      rw [← hv.2] at hla
      rcases ((foldl_oinsert_mem las (ha.las e.1 e.2 he).2).2 la).mp hla with h | h
      · exact .inl ⟨e.2, hv.1 ▸ he, h⟩
      · exact .inr ((has_iff hb).mpr ⟨las, hv.1 ▸ hm, h⟩)
  · intro h
    have hk : it ∈ core a := by
      rcases h with ⟨l, hm, _⟩ | ⟨l, hm, _⟩
      · exact List.mem_map_of_mem (f := Prod.fst) hm
      · rw [hc]; exact List.mem_map_of_mem (f := Prod.fst) hm
    obtain ⟨l, hl⟩ := mget_some_of_mem ha hk
    obtain ⟨las, hlas⟩ := mget_some_of_mem hb (hc ▸ hk)
    have hin := (mget_eq_some_iff ha.msorted).mp hl
    refine ⟨las.foldl (fun s x => oinsert x s) l, (hmem _).mpr ⟨(it, l), hin, by simp only [hlas]⟩, ?_⟩
    rw [(foldl_oinsert_mem las (ha.las it l hin).2).2]
    rw [has_iff ha, has_iff hb, hl, hlas] at h
    simpa using h

/-! ## merging one class -/

theorem mergeRest_spec {sets : List ItemSet} (hw : ∀ s ∈ sets, WFSet s) :
    ∀ (is : List Nat) (acc : ItemSet) (pres : List Bool), is.Nodup → WFSet acc →
    (∀ i ∈ is, pres.getD i false = true ∧ ∃ t, sets[i]? = some t ∧ core t = core acc) →
    ∃ r pres', mergeRest sets is acc pres = .ok (r, pres') ∧ WFSet r ∧ core r = core acc ∧
      (∀ it la, Has r it la ↔ Has acc it la ∨ ∃ i ∈ is, ∃ t, sets[i]? = some t ∧ Has t it la) ∧
      ∀ j, pres'.getD j false = true ↔ pres.getD j false = true ∧ j ∉ is := by
  intro is
  induction is with
  | nil => intro acc pres _ ha _; exact ⟨acc, pres, rfl, ha, rfl, by simp, by simp⟩
  | cons i is ih =>
    intro acc pres hn ha hi
    rw [List.nodup_cons] at hn
    obtain ⟨hp, t, ht, hct⟩ := hi i (by simp)
    have htake : takeSet sets pres i = .ok (t, pres.set i false) := by
      simp only [takeSet, hp, if_true]
      simp [List.getD, ht]
    obtain ⟨u, hu, hwu, hcu, hhu⟩ := union_spec ha (hw t (List.mem_of_getElem? ht)) hct.symm
    have hget : ∀ j, (pres.set i false).getD j false = true ↔ pres.getD j false = true ∧ j ≠ i := by
      intro j
      rw [List.getD_eq_getElem?_getD, List.getElem?_set]
      by_cases hij : i = j
      · subst hij; by_cases hl : i < pres.length <;> simp [hl]
      · simp [hij, List.getD_eq_getElem?_getD, Ne.symm hij]
    obtain ⟨r, pres', h1, h2, h3, h4, h5⟩ := ih u (pres.set i false) hn.2 hwu (by
      intro j hj
      obtain ⟨k1, k2⟩ := hi j (by simp [hj])
      refine ⟨(hget j).mpr ⟨k1, ?_⟩, by rw [hcu]; exact k2⟩
      rintro rfl; exact hn.1 hj)
    refine ⟨r, pres', ?_, h2, h3.trans hcu, ?_, ?_⟩
    · simp only [mergeRest, htake, hu, bind, Except.bind]
      exact h1
    · intro it la
      rw [h4, hhu, or_assoc]
      simp only [List.mem_cons, exists_eq_or_imp, ht, Option.some.injEq, exists_eq_left']
    · intro j
      rw [h5, hget, List.mem_cons, not_or, and_assoc]

theorem mergeGroup_spec {sets : List ItemSet} (hw : ∀ s ∈ sets, WFSet s) {is : List Nat} {pres : List Bool}
    (hn : is.Nodup) (hne : is ≠ [])
    (hp : ∀ i ∈ is, pres.getD i false = true)
    (hc : ∀ i ∈ is, ∀ j ∈ is, ∃ s t, sets[i]? = some s ∧ sets[j]? = some t ∧ core s = core t) :
    ∃ r pres', mergeGroup sets is pres = .ok (r, pres') ∧ WFSet r ∧
      (∀ i ∈ is, ∃ t, sets[i]? = some t ∧ core r = core t) ∧
      (∀ it la, Has r it la ↔ ∃ i ∈ is, ∃ t, sets[i]? = some t ∧ Has t it la) ∧
      ∀ j, pres'.getD j false = true ↔ pres.getD j false = true ∧ j ∉ is := by
  cases is with
  | nil => exact absurd rfl hne
  | cons i is =>
    rw [List.nodup_cons] at hn
    obtain ⟨s, _, hs, _, _⟩ := hc i (by simp) i (by simp)
    have htake : takeSet sets pres i = .ok (s, pres.set i false) := by
      have := hp i (by simp)
      simp only [takeSet, this, if_true]
      simp [List.getD, hs]
    have hget : ∀ j, (pres.set i false).getD j false = true ↔ pres.getD j false = true ∧ j ≠ i := by
      intro j
      rw [List.getD_eq_getElem?_getD, List.getElem?_set]
      by_cases hij : i = j
      · subst hij; by_cases hl : i < pres.length <;> simp [hl]
      · simp [hij, List.getD_eq_getElem?_getD, Ne.symm hij]
    have hcs : ∀ j ∈ i :: is, ∃ t, sets[j]? = some t ∧ core t = core s := by
      intro j hj
      obtain ⟨s', t, k1, k2, k3⟩ := hc i (by simp) j hj
      rw [hs] at k1; cases k1
      exact ⟨t, k2, k3.symm⟩
    obtain ⟨r, pres', h1, h2, h3, h4, h5⟩ := mergeRest_spec hw is s (pres.set i false) hn.2
      (hw s (List.mem_of_getElem? hs)) (by
        intro j hj
        refine ⟨(hget j).mpr ⟨hp j (by simp [hj]), ?_⟩, hcs j (by simp [hj])⟩
        rintro rfl; exact hn.1 hj)
    refine ⟨r, pres', ?_, h2, ?_, ?_, ?_⟩
    · simp only [mergeGroup, htake, bind, Except.bind]
      exact h1
    · intro j hj
      obtain ⟨t, k1, k2⟩ := hcs j hj
      exact ⟨t, k1, h3.trans k2.symm⟩
    · intro it la
      rw [h4]
      simp only [List.mem_cons, exists_eq_or_imp, hs, Option.some.injEq, exists_eq_left']
    · intro j
      rw [h5, hget, List.mem_cons, not_or, and_assoc]

/-! ## all classes -/

theorem foldl_minsert (v : Nat) : ∀ (is : List Nat) (m : List (Nat × Nat)), MSorted m →
    MSorted (is.foldl (fun m i => minsert i v m) m) ∧
    ∀ i, mget i (is.foldl (fun m i => minsert i v m) m) = if i ∈ is then some v else mget i m := by
  intro is
  induction is with
  | nil => intro m hm; simp [hm]
  | cons a is ih =>
    intro m hm
    obtain ⟨h1, h2⟩ := ih (minsert a v m) (msorted_minsert hm)
    refine ⟨h1, fun i => ?_⟩
    simp only [List.foldl_cons]
    rw [h2, mget_minsert]
    by_cases h : i ∈ is
    · simp [h]
    · by_cases h' : i = a <;> simp [h, h']

section
variable {H : Type} [DecidableEq H] (hash : List Item → H)

structure MInv (sets : List ItemSet) (done : List H) (res : List ItemSet) (m : List (Nat × Nat)) : Prop where
  keys : res.map (fun s => hash (core s)) = done
  wf : ∀ s ∈ res, WFSet s
  has : ∀ s ∈ res, ∀ it la, Has s it la ↔ ∃ t ∈ sets, core t = core s ∧ Has t it la
  from_ : ∀ s ∈ res, ∃ t ∈ sets, core s = core t
  sorted : MSorted m
  map : ∀ i k, mget i m = some k ↔ ∃ s h, sets[i]? = some s ∧ hash (core s) = h ∧ done[k]? = some h

theorem mergeLoop_spec {sets : List ItemSet} (hw : ∀ s ∈ sets, WFSet s)
    (hinj : ∀ s ∈ sets, ∀ t ∈ sets, hash (core s) = hash (core t) → core s = core t) :
    ∀ (rest done : List H) (pres : List Bool) (res : List ItemSet) (m : List (Nat × Nat)),
    done ++ rest = firsts (sets.map fun s => hash (core s)) →
    MInv hash sets done res m →
    (∀ i, pres.getD i false = true ↔ ∃ s, sets[i]? = some s ∧ hash (core s) ∉ done) →
    ∃ res' m', mergeLoop sets (rest.map fun h => (h, idxs h (sets.map fun s => hash (core s)))) pres res m =
      .ok (res', m') ∧ MInv hash sets (firsts (sets.map fun s => hash (core s))) res' m' := by
  intro rest
  induction rest with
  | nil =>
    intro done pres res m hd hinv _
    simp only [List.append_nil] at hd
    subst hd
    exact ⟨res, m, rfl, hinv⟩
  | cons h rest ih =>
    intro done pres res m hd hinv hp
    have hidx : ∀ i, i ∈ idxs h (sets.map fun s => hash (core s)) ↔
        ∃ s, sets[i]? = some s ∧ hash (core s) = h := by
      intro i
      rw [mem_idxs, List.getElem?_map, Option.map_eq_some_iff]
    have hnd : h ∉ done := by
      have := nodup_firsts (sets.map fun s => hash (core s))
      rw [← hd, List.nodup_append] at this
      intro hm
      exact this.2.2 h hm h (by simp) rfl
    have hin : h ∈ sets.map fun s => hash (core s) := by
      rw [← mem_firsts, ← hd]; simp
    have hne : idxs h (sets.map fun s => hash (core s)) ≠ [] := by
      obtain ⟨s, hs, rfl⟩ := List.mem_map.mp hin
      obtain ⟨i, hi⟩ := List.getElem?_of_mem hs
      exact List.ne_nil_of_mem ((hidx i).mpr ⟨s, hi, rfl⟩)
    obtain ⟨r, pres', h1, h2, h3, h4, h5⟩ := mergeGroup_spec (pres := pres) hw
      (idxs_nodup h (sets.map fun s => hash (core s))) hne
      (by
        intro i hi
        obtain ⟨s, hs, he⟩ := (hidx i).mp hi
        exact (hp i).mpr ⟨s, hs, he ▸ hnd⟩)
      (by
        intro i hi j hj
        obtain ⟨s, hs, he⟩ := (hidx i).mp hi
        obtain ⟨t, ht, he'⟩ := (hidx j).mp hj
        exact ⟨s, t, hs, ht, hinj s (List.mem_of_getElem? hs) t (List.mem_of_getElem? ht) (he.trans he'.symm)⟩)
    obtain ⟨i0, hi0⟩ := List.exists_mem_of_ne_nil _ hne
    obtain ⟨t0, ht0, hct0⟩ := h3 i0 hi0
    obtain ⟨s0, hs0, he0⟩ := (hidx i0).mp hi0
    rw [ht0] at hs0; cases hs0
    have hrh : hash (core r) = h := by rw [hct0, he0]
    have hnr : r ∉ res := by
      intro hm
      refine hnd ?_
      rw [← hinv.keys, ← hrh]
      exact List.mem_map_of_mem (f := fun s => hash (core s)) hm
    have hii : iinsert r res = res ++ [r] := by simp [iinsert, hnr]
    have hlen : res.length = done.length := by rw [← hinv.keys, List.length_map]
    obtain ⟨m1, m2⟩ := foldl_minsert res.length (idxs h (sets.map fun s => hash (core s))) m hinv.sorted
    obtain ⟨res', m', k1, k2⟩ := ih (done ++ [h]) pres' (res ++ [r])
      ((idxs h (sets.map fun s => hash (core s))).foldl (fun m i => minsert i res.length m) m)
      (by simpa using hd) (by
        refine ⟨by simp [hinv.keys, hrh], ?_, ?_, ?_, m1, ?_⟩
        · intro s hs
          rcases List.mem_append.mp hs with hs | hs
          · exact hinv.wf s hs
          · simp only [List.mem_singleton] at hs; rw [hs]; exact h2
        · intro s hs
          rcases List.mem_append.mp hs with hs | hs
          · exact hinv.has s hs
          · simp only [List.mem_singleton] at hs
            subst hs
            intro it la
            rw [h4]
            constructor
            · rintro ⟨i, hi, t, ht, hh⟩
              obtain ⟨t', ht', hct⟩ := h3 i hi
              rw [ht] at ht'; cases ht'
              exact ⟨t, List.mem_of_getElem? ht, hct.symm, hh⟩
            · rintro ⟨t, ht, hct, hh⟩
              obtain ⟨i, hi⟩ := List.getElem?_of_mem ht
              exact ⟨i, (hidx i).mpr ⟨t, hi, by rw [hct, hrh]⟩, t, hi, hh⟩
        · intro s hs
          rcases List.mem_append.mp hs with hs | hs
          · exact hinv.from_ s hs
          · simp only [List.mem_singleton] at hs
            subst hs
            exact ⟨t0, List.mem_of_getElem? ht0, hct0⟩
        · intro i k
          rw [m2]
          by_cases hi : i ∈ idxs h (sets.map fun s => hash (core s))
          · rw [if_pos hi]
            obtain ⟨s, hs, he⟩ := (hidx i).mp hi
            constructor
            · intro hk
              simp only [Option.some.injEq] at hk
              refine ⟨s, h, hs, he, ?_⟩
              rw [← hk, hlen]; simp
            · rintro ⟨s', h', hs', he', hk⟩
              rw [hs] at hs'; cases hs'
              rw [he] at he'; subst he'
              by_cases hkl : k < done.length
              · rw [List.getElem?_append_left hkl] at hk
                exact absurd (List.mem_of_getElem? hk) hnd
              · have := (List.getElem?_eq_some_iff.mp hk).1
                simp only [List.length_append, List.length_singleton] at this
                have : k = done.length := by omega
                rw [hlen, this]
          · rw [if_neg hi, hinv.map]
            constructor
            · rintro ⟨s, h', hs, he, hk⟩
              refine ⟨s, h', hs, he, ?_⟩
              rw [List.getElem?_append_left (List.getElem?_eq_some_iff.mp hk).1]; exact hk
            · rintro ⟨s, h', hs, he, hk⟩
              refine ⟨s, h', hs, he, ?_⟩
              by_cases hkl : k < done.length
              · rwa [List.getElem?_append_left hkl] at hk
              · have := (List.getElem?_eq_some_iff.mp hk).1
                simp only [List.length_append, List.length_singleton] at this
                have hkd : k = done.length := by omega
                rw [hkd] at hk
                simp only [List.getElem?_concat_length, Option.some.injEq] at hk
                exact absurd ((hidx i).mpr ⟨s, hs, by rw [he, hk]⟩) hi)
      (by
        intro i
        rw [h5, hp, hidx]
        simp only [List.mem_append, List.mem_singleton, not_or, not_exists, not_and]
        constructor
        · rintro ⟨⟨s, hs, hnd⟩, hall⟩
          exact ⟨s, hs, hnd, hall s hs⟩
        · rintro ⟨s, hs, hnd, hh⟩
          refine ⟨⟨s, hs, hnd⟩, fun t ht => ?_⟩
          rw [hs] at ht; cases ht
          exact hh)
    refine ⟨res', m', ?_, k2⟩
    simp only [List.map_cons, mergeLoop, h1, bind, Except.bind, hii]
    exact k1

theorem mergeCores_spec {sets : List ItemSet} (hw : ∀ s ∈ sets, WFSet s)
    (hinj : ∀ s ∈ sets, ∀ t ∈ sets, hash (core s) = hash (core t) → core s = core t) :
    ∃ res m, mergeCores hash sets = .ok (res, m) ∧ res.map core = firsts (sets.map core) ∧
      (∀ s ∈ res, WFSet s) ∧
      (∀ s ∈ res, ∀ it la, Has s it la ↔ ∃ t ∈ sets, core t = core s ∧ Has t it la) ∧
      MSorted m ∧
      ∀ i k, mget i m = some k ↔ ∃ s r, sets[i]? = some s ∧ res[k]? = some r ∧ core r = core s := by
  obtain ⟨res, m, h1, h2⟩ := mergeLoop_spec hash hw hinj (firsts (sets.map fun s => hash (core s))) []
    (List.replicate sets.length true) [] [] (by simp)
    ⟨rfl, by simp, by simp, by simp, by simp [MSorted, Sorted], by simp [mget]⟩
    (by
      intro i
      simp only [List.getD_eq_getElem?_getD, List.not_mem_nil, not_false_eq_true, and_true]
      constructor
      · intro h
        by_cases hi : i < sets.length
        · exact ⟨sets[i], List.getElem?_eq_getElem hi⟩
        · rw [List.getElem?_eq_none (by simpa using hi)] at h; cases h
      · rintro ⟨s, hs⟩
        have := (List.getElem?_eq_some_iff.mp hs).1
        simp [this])
  have hkeys : res.map core = firsts (sets.map core) := by
    refine map_inj_on (f := hash) ?_ ?_
    · have := firsts_map (f := hash) (sets.map core) (by
        intro a ha b hb hab
        obtain ⟨s, hs, rfl⟩ := List.mem_map.mp ha
        obtain ⟨t, ht, rfl⟩ := List.mem_map.mp hb
        exact hinj s hs t ht hab)
      rw [← this, List.map_map, List.map_map]
      exact h2.keys
    · intro a ha b hb hab
      obtain ⟨s, hs, rfl⟩ := List.mem_map.mp ha
      obtain ⟨s', hs', he⟩ := h2.from_ s hs
      obtain ⟨t, ht, rfl⟩ := List.mem_map.mp (mem_firsts.mp hb)
      rw [he] at hab ⊢
      exact hinj s' hs' t ht hab
  refine ⟨res, m, ?_, hkeys, h2.wf, h2.has, h2.sorted, fun i k => ?_⟩
  · unfold mergeCores
    rw [groupLoop_eq]
    exact h1
  · rw [h2.map, ← h2.keys]
    simp only [List.getElem?_map, Option.map_eq_some_iff]
    constructor
    · rintro ⟨s, h, hs, rfl, r, hr, he⟩
      obtain ⟨r', hr', he'⟩ := h2.from_ r (List.mem_of_getElem? hr)
      refine ⟨s, r, hs, hr, ?_⟩
      rw [he'] at he ⊢
      exact hinj r' hr' s (List.mem_of_getElem? hs) he
    · rintro ⟨s, r, hs, hr, he⟩
      exact ⟨s, _, hs, rfl, r, hr, by rw [he]⟩
end

end Lalr
end Verif
