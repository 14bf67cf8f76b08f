import Verif.Proofs.TableOk
import Verif.Proofs.MergeAny

/-! What the parser needs to know about the tables. -/

namespace Verif
open Spec Grammar

namespace ItemSet
variable {g : Grammar}

theorem asks_ne_zero (h : GOk g) {it : Item} {la q b : Nat} (ha : Asks g it la q b) : q ≠ 0 := by
  rintro rfl
  obtain ⟨p, B, p', t, tb, hp, hi, hp', hn, _, _, _⟩ := ha
  obtain ⟨S, hS⟩ := h.start
  rw [hS] at hp'
  cases hp'
  simp only at hn
  refine h.fresh p (List.mem_of_getElem? hp) ?_
  rw [hn]
  exact List.mem_of_getElem? hi

theorem clo_zero (h : GOk g) {I : Item → Nat → Prop} {it : Item} {la : Nat} (hc : Clo g I it la)
    (h0 : it.1 = 0 ∨ it.2 ≠ 0) : I it la := by
  cases hc with
  | base h => exact h
  | step _ ha =>
    rcases h0 with h0 | h0
    · exact absurd h0 (asks_ne_zero h ha)
    · exact absurd rfl h0

theorem reach_closed {I : Item → Nat → Prop} (hr : Reach g I) {it : Item} {la q b : Nat}
    (h : I it la) (ha : Asks g it la q b) : I (q, 0) b := by
  cases hr with
  | init => exact .step h ha
  | goto _ _ => exact .step h ha

/-- `[S' → ·S]` is in the first set only. -/
theorem reach_zero (h : GOk g) {I : Item → Nat → Prop} (hr : Reach g I) {la : Nat} (hI : I (0, 0) la) :
    I = Clo g fun it la => it = (0, 0) ∧ la = 0 := by
  cases hr with
  | init => rfl
  | goto _ _ =>
    obtain ⟨d, p, h1, _⟩ := clo_zero h hI (.inl rfl)
    simp at h1

end ItemSet

namespace Lalr
open ItemSet

theorem firsts_cons {α : Type} [DecidableEq α] (a : α) (l : List α) : (firsts (a :: l))[0]? = some a := by
  induction l using List.reverseRecOn with
  | nil => simp [firsts]
  | append_singleton l b ih =>
    rw [← List.cons_append, firsts_snoc]
    split
    · exact ih
    · rw [List.getElem?_append_left]
      · exact ih
      · exact (List.getElem?_eq_some_iff.mp ih).1

/-- What every built table satisfies. -/
structure TabSound (g : Grammar) (lalr : List ItemSet) (action : Table Nat Action) (goto : Table Str Nat)
    (look : ItemSet → Sym → Option Nat) : Prop where
  wf : ∀ s ∈ lalr, WFSet s
  rng : ∀ s ∈ lalr, ∀ it la, Has s it la → Rng g it la
  term : ∀ s ∈ lalr, ∀ it la, Has s it la → TermLa g la
  init : ∃ s0, lalr[0]? = some s0 ∧ (∀ it la, Has s0 it la → it.2 = 0) ∧ Has s0 (0, 0) 0
  init0 : ∀ s0, lalr[0]? = some s0 → ∀ it la, Has s0 it la →
    ∃ la', Clo g (fun it la => it = (0, 0) ∧ la = 0) it la'
  asked : ∀ s ∈ lalr, ∀ q la, Has s (q, 0) la → q ≠ 0 → ∃ it la' p p', Has s it la' ∧ g.prods[it.1]? = some p ∧
    g.prods[q]? = some p' ∧ p.inputs[it.2]? = some (.nonTerm p'.name)
  zero : ∀ i s la, lalr[i]? = some s → Has s (0, 0) la → i = 0
  zeroLa : ∀ s ∈ lalr, ∀ d la, Has s (0, d) la → la = 0
  act : ∀ i k a, action.tryIndex i k = some a ↔ ∃ s it, lalr[i]? = some s ∧ Calls g (fun x j => look s x = some j) s it k a
  uniq : ∀ s ∈ lalr, ∀ it it' k a a', Calls g (fun x j => look s x = some j) s it k a → Calls g (fun x j => look s x = some j) s it' k a' →
    it = it' ∧ a = a'
  go : ∀ i A j, goto.tryIndex i A = some j ↔ ∃ s, lalr[i]? = some s ∧ look s (.nonTerm A) = some j
  lookS : ∀ s ∈ lalr, ∀ x j, look s x = some j → ∃ s', lalr[j]? = some s' ∧
    (∀ it la, Has s' it la → ∃ la', Clo g (Advanced g (Has s) x) it la') ∧ ∃ it la, Has s' it la

/-- What the tables satisfy when no hashes collide. -/
structure TabOk (g : Grammar) (lalr : List ItemSet) (action : Table Nat Action) (goto : Table Str Nat)
    (look : ItemSet → Sym → Option Nat) : Prop extends TabSound g lalr action goto look where
  closed : ∀ s ∈ lalr, ∀ it la q b, Has s it la → Asks g it la q b → Has s (q, 0) b
  look : ∀ s ∈ lalr, ∀ x j, look s x = some j → ∃ s', lalr[j]? = some s' ∧
    (∀ it la, Has s' it la → ∃ la', Clo g (Advanced g (Has s) x) it la') ∧
    (∀ it la, Clo g (Advanced g (Has s) x) it la → Has s' it la) ∧
    ∃ it la, Advanced g (Has s) x it la

theorem reach_zeroLa {g : Grammar} (h : GOk g) {I : Item → Nat → Prop} (hr : Reach g I) :
    ∀ d la, I (0, d) la → la = 0 := by
  induction hr with
  | init => intro d la hI; exact (clo_zero h hI (.inl rfl)).2
  | goto _ _ ih =>
    intro d la hI
    obtain ⟨d', p, _, h2, _⟩ := clo_zero h hI (.inl rfl)
    exact ih d' la h2

/-- An item with its dot in front was asked for. -/
theorem reach_asked {g : Grammar} {I : Item → Nat → Prop} (hr : Reach g I) {q la : Nat} (hI : I (q, 0) la)
    (hq : q ≠ 0) : ∃ it la', I it la' ∧ Asks g it la' q la := by
  cases hr with
  | init =>
    cases hI with
    | base h => simp at h; exact absurd h.1 hq
    | step h ha => exact ⟨_, _, h, ha⟩
  | goto _ _ =>
    cases hI with
    | base h => obtain ⟨d, p, h, _⟩ := h; simp at h
    | step h ha => exact ⟨_, _, h, ha⟩

theorem goto_nil {g : Grammar} (h : GOk g) {d : Nat} {s : ItemSet} {x : Sym} (hx : x ∉ g.tokens) :
    ItemSet.goto g d s x = .ok [] := by
  obtain ⟨h1, h2⟩ := advance_spec h x (set := s)
  have hadv : advance g x s = [] := by
    by_contra hne
    obtain ⟨it, la, hh⟩ := (has_ne_nil h1).mp hne
    exact goto_none h hx _ ((h2 it la).mp hh)
  unfold ItemSet.goto
  rw [hadv]
  unfold closure
  cases g.prods.length * g.tokens.length <;> rfl

section
variable {H : Type} [DecidableEq H] {hash : List Item → H} {g : Grammar} {d : Nat}

/-- The merge of a canonical collection. -/
structure Merged (g : Grammar) (d : Nat) (lr lalr : List ItemSet) (m : List (Nat × Nat)) : Prop where
  res : ∃ i0, closure g d initial = .ok i0 ∧ CRes g d [i0] lr
  cores : lalr.map core = firsts (lr.map core)
  wf : ∀ s ∈ lalr, WFSet s
  has : ∀ s ∈ lalr, ∀ it la, Has s it la ↔ ∃ t ∈ lr, core t = core s ∧ Has t it la
  map : ∀ i k, mget i m = some k ↔ ∃ s r, lr[i]? = some s ∧ lalr[k]? = some r ∧ core r = core s

theorem merged_of (h : GOk g) {lr lalr : List ItemSet} {m : List (Nat × Nat)} (hlr : items g d = .ok lr)
    (hinj : ∀ s ∈ lr, ∀ t ∈ lr, hash (core s) = hash (core t) → core s = core t)
    (hm : mergeCores hash lr = .ok (lalr, m)) : Merged g d lr lalr m := by
  obtain ⟨i0, hi0, hres⟩ := (items_spec h d).1 lr hlr
  obtain ⟨lalr', m', h1, h2, h3, h4, _, h6⟩ := mergeCores_spec hash hres.inv.wf hinj
  rw [hm] at h1
  cases h1
  exact ⟨⟨i0, hi0, hres⟩, h2, h3, h4, h6⟩

variable {lr lalr : List ItemSet} {m : List (Nat × Nat)}

theorem Merged.mem (hM : Merged g d lr lalr m) {s : ItemSet} (hs : s ∈ lalr) :
    ∃ t ∈ lr, core t = core s := by
  have : core s ∈ firsts (lr.map core) := by rw [← hM.cores]; exact List.mem_map_of_mem hs
  obtain ⟨t, ht, he⟩ := List.mem_map.mp (mem_firsts.mp this)
  exact ⟨t, ht, he⟩

theorem Merged.lrwf (hM : Merged g d lr lalr m) : ∀ s ∈ lr, WFSet s := by
  obtain ⟨i0, _, hres⟩ := hM.res; exact hres.inv.wf

theorem Merged.lrreach (hM : Merged g d lr lalr m) : ∀ s ∈ lr, Reach g (Has s) := by
  obtain ⟨i0, _, hres⟩ := hM.res; exact hres.inv.reach

theorem Merged.ne (hM : Merged g d lr lalr m) : ∀ s ∈ lalr, s ≠ [] := by
  intro s hs
  obtain ⟨t, ht, he⟩ := hM.mem hs
  obtain ⟨i0, _, hres⟩ := hM.res
  rintro rfl
  have := hres.inv.ne t ht
  simp only [core, List.map_nil, List.map_eq_nil_iff] at he
  exact this he

/-- Distinct states have distinct cores. -/
theorem Merged.core_inj (hM : Merged g d lr lalr m) {i j : Nat} {s t : ItemSet} (hs : lalr[i]? = some s)
    (ht : lalr[j]? = some t) (h : core s = core t) : i = j := by
  have hn : (lalr.map core).Nodup := by rw [hM.cores]; exact nodup_firsts _
  have h1 : (lalr.map core)[i]? = some (core s) := by simp [hs]
  have h2 : (lalr.map core)[j]? = some (core s) := by simp [ht, h]
  obtain ⟨hi, h1⟩ := List.getElem?_eq_some_iff.mp h1
  obtain ⟨hj, h2⟩ := List.getElem?_eq_some_iff.mp h2
  exact (List.getElem_inj hn).mp (h1.trans h2.symm)

theorem Merged.rng (hM : Merged g d lr lalr m) (h : GOk g) : ∀ s ∈ lalr, ∀ it la, Has s it la → Rng g it la := by
  intro s hs it la hh
  obtain ⟨t, ht, _, hh⟩ := (hM.has s hs it la).mp hh
  exact reach_rng h (hM.lrreach t ht) it la hh

/-- A successful lookup leads to the state with the core of the GOTO set. -/
theorem Merged.lookup_some (hM : Merged g d lr lalr m) (h : GOk g) {s : ItemSet} (hs : s ∈ lalr) {x : Sym} {j : Nat}
    (hl : lookup g d lalr lr m s x = some j) : ∃ r s', ItemSet.goto g d s x = .ok r ∧ WFSet r ∧
      (∀ it la, Has r it la ↔ Clo g (Advanced g (Has s) x) it la) ∧ lalr[j]? = some s' ∧
      core s' = core r ∧ (∀ it la, Has r it la → Has s' it la) ∧ r ≠ [] := by
  unfold lookup computeGoto at hl
  cases hg : ItemSet.goto g d s x with
  | error e => simp [hg, bind, Except.bind] at hl
  | ok r =>
    obtain ⟨w1, w2⟩ := (goto_spec h d (hM.wf s hs) x).1 r hg
    simp only [hg, bind, Except.bind, pure, Except.pure] at hl
    cases hi : indexOf lr r with
    | some i =>
      simp only [hi] at hl
      obtain ⟨r', s', h1, h2, h3⟩ := (hM.map i j).mp hl
      have hr := indexOf_some hi
      rw [hr] at h1; cases h1
      refine ⟨r, s', rfl, w1, w2, h2, h3, fun it la hh => ?_, ?_⟩
      · exact (hM.has s' (List.mem_of_getElem? h2) it la).mpr ⟨r, List.mem_of_getElem? hr, h3.symm, hh⟩
      · obtain ⟨i0, _, hres⟩ := hM.res
        exact hres.inv.ne r (List.mem_of_getElem? hr)
    | none =>
      simp only [hi] at hl
      have hr := indexOf_some hl
      exact ⟨r, r, rfl, w1, w2, hr, rfl, fun _ _ h => h, hM.ne r (List.mem_of_getElem? hr)⟩

theorem Merged.init (hM : Merged g d lr lalr m) (h : GOk g) :
    ∃ i0 s0, lr[0]? = some i0 ∧ lalr[0]? = some s0 ∧ core s0 = core i0 ∧
      ∀ it la, Has i0 it la ↔ Clo g (fun it la => it = (0, 0) ∧ la = 0) it la := by
  obtain ⟨i0, hi0, hres⟩ := hM.res
  obtain ⟨w1, w2⟩ := (closure_spec h d wf_initial).1 i0 hi0
  rw [has_initial] at w2
  obtain ⟨tl, htl⟩ := hres.pre
  have h0 : lr[0]? = some i0 := by rw [← htl]; rfl
  have : (lalr.map core)[0]? = some (core i0) := by
    rw [hM.cores, ← htl]
    simp only [List.singleton_append, List.map_cons]
    exact firsts_cons _ _
  rw [List.getElem?_map, Option.map_eq_some_iff] at this
  obtain ⟨s0, hs0, hc⟩ := this
  exact ⟨i0, s0, h0, hs0, hc, w2⟩

theorem Merged.zero (hM : Merged g d lr lalr m) (h : GOk g) {i : Nat} {s : ItemSet} {la : Nat}
    (hs : lalr[i]? = some s) (hh : Has s (0, 0) la) : i = 0 := by
  obtain ⟨t, ht, hc, hh⟩ := (hM.has s (List.mem_of_getElem? hs) _ _).mp hh
  obtain ⟨i0, s0, h0, hs0, hc0, hi0⟩ := hM.init h
  have he := reach_zero h (hM.lrreach t ht) hh
  have : t = i0 := by
    refine wf_ext (hM.lrwf t ht) (hM.lrwf i0 (List.mem_of_getElem? h0)) fun it la => ?_
    rw [he, hi0]
  subst this
  exact hM.core_inj hs hs0 (hc.symm.trans hc0.symm)

/-- What survives of a merge when hashes collide. -/
structure MergedAny (g : Grammar) (d : Nat) (lr lalr : List ItemSet) (m : List (Nat × Nat)) : Prop where
  res : ∃ i0, closure g d initial = .ok i0 ∧ CRes g d [i0] lr
  wf : ∀ s ∈ lalr, WFSet s
  first : ∀ s ∈ lalr, ∃ f ∈ lr, core f = core s
  has : ∀ s ∈ lalr, ∀ it la, Has s it la → ∃ t ∈ lr, Has t it la
  map : ∀ i k, mget i m = some k → ∃ s r, lr[i]? = some s ∧ lalr[k]? = some r ∧ ∀ it ∈ core r, it ∈ core s
  init : ∃ i0 s0, lr[0]? = some i0 ∧ lalr[0]? = some s0 ∧ core s0 = core i0 ∧ Has s0 (0, 0) 0
  zero : ∀ i s la, lalr[i]? = some s → Has s (0, 0) la → i = 0

theorem lr_init (h : GOk g) (hR : ∃ i0, closure g d initial = .ok i0 ∧ CRes g d [i0] lr) :
    ∃ i0, lr[0]? = some i0 ∧ ∀ it la, Has i0 it la ↔ Clo g (fun it la => it = (0, 0) ∧ la = 0) it la := by
  obtain ⟨i0, hi0, hres⟩ := hR
  obtain ⟨w1, w2⟩ := (closure_spec h d wf_initial).1 i0 hi0
  rw [has_initial] at w2
  obtain ⟨tl, htl⟩ := hres.pre
  exact ⟨i0, by rw [← htl]; rfl, w2⟩

theorem Merged.any (hM : Merged g d lr lalr m) (h : GOk g) : MergedAny g d lr lalr m := by
  refine ⟨hM.res, hM.wf, fun s hs => hM.mem hs, fun s hs it la hh => ?_, fun i k hk => ?_, ?_, fun i s la => hM.zero h⟩
  · obtain ⟨t, ht, _, hh⟩ := (hM.has s hs it la).mp hh
    exact ⟨t, ht, hh⟩
  · obtain ⟨s, r, h1, h2, h3⟩ := (hM.map i k).mp hk
    exact ⟨s, r, h1, h2, fun it => by rw [h3]; exact id⟩
  · obtain ⟨i0, s0, h0, hs0, hc0, hi0⟩ := hM.init h
    exact ⟨i0, s0, h0, hs0, hc0, (hM.has s0 (List.mem_of_getElem? hs0) _ _).mpr
      ⟨i0, List.mem_of_getElem? h0, hc0.symm, (hi0 _ _).mpr (.base ⟨rfl, rfl⟩)⟩⟩

/-- Whatever the hash does. -/
theorem mergedAny_of (h : GOk g) (hlr : items g d = .ok lr) (hm : mergeCores hash lr = .ok (lalr, m)) :
    MergedAny g d lr lalr m := by
  obtain ⟨i0, hi0, hres⟩ := (items_spec h d).1 lr hlr
  have hA := mergeCores_any hash hres.inv.wf hm
  obtain ⟨i0', h0, hi0'⟩ := lr_init h ⟨i0, hi0, hres⟩
  have hlen : ∀ {k : Nat} {x : H}, (firsts (lr.map fun s => hash (core s)))[k]? = some x →
      ∃ r, lalr[k]? = some r ∧ hash (core r) = x := by
    intro k x hk
    rw [← hA.keys, List.getElem?_map, Option.map_eq_some_iff] at hk
    exact hk
  have hz : ∃ s0, lalr[0]? = some s0 ∧ hash (core s0) = hash (core i0') := by
    refine hlen ?_
    cases lr with
    | nil => simp at h0
    | cons a l =>
      simp only [List.getElem?_cons_zero, Option.some.injEq] at h0
      subst h0
      exact firsts_cons _ _
  obtain ⟨s0, hs0, he0⟩ := hz
  have hc0 : core s0 = core i0' := by
    obtain ⟨i, f, hf, hc, hle⟩ := hA.first s0 (List.mem_of_getElem? hs0)
    have := hle 0 i0' h0 he0.symm
    obtain rfl : i = 0 := by omega
    rw [h0] at hf; cases hf
    exact hc.symm
  have hb : Has i0' (0, 0) 0 := (hi0' _ _).mpr (.base ⟨rfl, rfl⟩)
  refine ⟨⟨i0, hi0, hres⟩, hA.wf, fun s hs => ?_, fun s hs it la hh => ?_, fun i k hk => ?_, ?_, fun i s la hs hh => ?_⟩
  · obtain ⟨i, f, hf, hc, _⟩ := hA.first s hs
    exact ⟨f, List.mem_of_getElem? hf, hc⟩
  · obtain ⟨_, t, ht, _, hh⟩ := (hA.has s hs it la).mp hh
    exact ⟨t, ht, hh⟩
  · obtain ⟨s, x, hs, hx, hk⟩ := (hA.map i k).mp hk
    obtain ⟨r, hr, hrx⟩ := hlen hk
    exact ⟨s, r, hs, hr, hA.sub r (List.mem_of_getElem? hr) s (List.mem_of_getElem? hs) (hx.trans hrx.symm)⟩
  · refine ⟨i0', s0, h0, hs0, hc0, (hA.has s0 (List.mem_of_getElem? hs0) _ _).mpr ⟨?_, i0', List.mem_of_getElem? h0, he0.symm, hb⟩⟩
    rw [hc0, mem_core (hres.inv.wf i0' (List.mem_of_getElem? h0))]
    exact ⟨0, hb⟩
  · obtain ⟨_, t, ht, he, hh⟩ := (hA.has s (List.mem_of_getElem? hs) _ _).mp hh
    have ht' := reach_zero h (hres.inv.reach t ht) hh
    have : t = i0' := by
      refine wf_ext (hres.inv.wf t ht) (hres.inv.wf i0' (List.mem_of_getElem? h0)) fun it la => ?_
      rw [ht', hi0']
    subst this
    have hn : (lalr.map fun s => hash (core s)).Nodup := by rw [hA.keys]; exact nodup_firsts _
    have h1 : (lalr.map fun s => hash (core s))[i]? = some (hash (core s)) := by simp [hs]
    have h2 : (lalr.map fun s => hash (core s))[0]? = some (hash (core s)) := by simp [hs0, he0, he]
    obtain ⟨hi, h1⟩ := List.getElem?_eq_some_iff.mp h1
    obtain ⟨hj, h2⟩ := List.getElem?_eq_some_iff.mp h2
    exact (List.getElem_inj hn).mp (h1.trans h2.symm)

theorem MergedAny.lrwf (hM : MergedAny g d lr lalr m) : ∀ s ∈ lr, WFSet s := by
  obtain ⟨i0, _, hres⟩ := hM.res; exact hres.inv.wf

theorem MergedAny.lrreach (hM : MergedAny g d lr lalr m) : ∀ s ∈ lr, Reach g (Has s) := by
  obtain ⟨i0, _, hres⟩ := hM.res; exact hres.inv.reach

theorem MergedAny.lrne (hM : MergedAny g d lr lalr m) : ∀ s ∈ lr, s ≠ [] := by
  obtain ⟨i0, _, hres⟩ := hM.res; exact hres.inv.ne

theorem MergedAny.ne (hM : MergedAny g d lr lalr m) : ∀ s ∈ lalr, s ≠ [] := by
  intro s hs
  obtain ⟨t, ht, he⟩ := hM.first s hs
  rintro rfl
  simp only [core, List.map_nil, List.map_eq_nil_iff] at he
  exact hM.lrne t ht he

theorem MergedAny.rng (hM : MergedAny g d lr lalr m) (h : GOk g) : ∀ s ∈ lalr, ∀ it la, Has s it la → Rng g it la := by
  intro s hs it la hh
  obtain ⟨t, ht, hh⟩ := hM.has s hs it la hh
  exact reach_rng h (hM.lrreach t ht) it la hh

theorem MergedAny.lookup_some (hM : MergedAny g d lr lalr m) (h : GOk g) {s : ItemSet} (hs : s ∈ lalr) {x : Sym} {j : Nat}
    (hl : lookup g d lalr lr m s x = some j) : ∃ r s', WFSet r ∧
      (∀ it la, Has r it la ↔ Clo g (Advanced g (Has s) x) it la) ∧ lalr[j]? = some s' ∧
      ∀ it ∈ core s', it ∈ core r := by
  unfold lookup computeGoto at hl
  cases hg : ItemSet.goto g d s x with
  | error e => simp [hg, bind, Except.bind] at hl
  | ok r =>
    obtain ⟨w1, w2⟩ := (goto_spec h d (hM.wf s hs) x).1 r hg
    simp only [hg, bind, Except.bind, pure, Except.pure] at hl
    cases hi : indexOf lr r with
    | some i =>
      simp only [hi] at hl
      obtain ⟨r', s', h1, h2, h3⟩ := hM.map i j hl
      have hr := indexOf_some hi
      rw [hr] at h1; cases h1
      exact ⟨r, s', w1, w2, h2, h3⟩
    | none =>
      simp only [hi] at hl
      exact ⟨r, r, w1, w2, indexOf_some hl, fun _ h => h⟩

theorem lookup_nt (h : GOk g) (hM : MergedAny g d lr lalr m) {s : ItemSet} {A : Str} {j : Nat}
    (hl : lookup g d lalr lr m s (.nonTerm A) = some j) : A ∈ g.nonTerminals := by
  by_contra hA
  have hx : Sym.nonTerm A ∉ g.tokens := by
    intro hx
    exact hA (List.mem_filterMap.mpr ⟨.nonTerm A, hx, rfl⟩)
  unfold lookup computeGoto at hl
  simp only [goto_nil h hx, bind, Except.bind, pure, Except.pure] at hl
  cases hi : indexOf lr [] with
  | some i => exact hM.lrne [] (List.mem_of_getElem? (indexOf_some hi)) rfl
  | none =>
    simp only [hi] at hl
    exact hM.ne [] (List.mem_of_getElem? (indexOf_some hl)) rfl

theorem tabSound_of (h : GOk g) (hM : MergedAny g d lr lalr m) {action : Table Nat Action} {got : Table Str Nat}
    (ht : makeLalrTables g d lalr lr m = .ok (action, got)) :
    TabSound g lalr action got (lookup g d lalr lr m) := by
  unfold makeLalrTables at ht
  cases ha : actionStates g d lalr lr m 0 lalr [] with
  | error e => simp [ha, bind, Except.bind] at ht
  | ok a =>
    cases hg : gotoStates g d lalr lr m 0 lalr [] with
    | error e => simp [ha, hg, bind, Except.bind] at ht
    | ok t =>
      simp only [ha, hg, bind, Except.bind, pure, Except.pure, Except.ok.injEq, Prod.mk.injEq] at ht
      obtain ⟨rfl, rfl⟩ := ht
      have hsound := actionStates_sound lalr 0 [] a ha
      rw [actionStates_eq lalr 0 [] hsound] at ha
      obtain ⟨hn, _, hact⟩ := (addAll_spec _ _).2.1 a ha
      rw [allCells_nodup lalr 0 hM.wf] at hn
      have hrng := hM.rng h
      obtain ⟨hgo1, hgo2⟩ := gotoStates_spec lalr 0 [] t (fun _ _ _ => rfl) hg
      obtain ⟨i0, s0, h0, hs0, hc0, hb0⟩ := hM.init
      obtain ⟨i0', h0', hi0⟩ := lr_init h hM.res
      rw [h0] at h0'; cases h0'
      refine ⟨hM.wf, hrng, ?_, ?_, ?_, ?_, hM.zero, ?_, ?_, ?_, ?_, ?_⟩
      · intro s hs it la hh
        obtain ⟨t, ht, hh⟩ := hM.has s hs it la hh
        exact reach_termLa h (hM.lrreach t ht) it la hh
      · refine ⟨s0, hs0, fun it la hh => ?_, ?_⟩
        · have hm : it ∈ core i0 := by
            rw [← hc0]; exact (mem_core (hM.wf s0 (List.mem_of_getElem? hs0))).mpr ⟨la, hh⟩
          obtain ⟨la', hh⟩ := (mem_core (hM.lrwf i0 (List.mem_of_getElem? h0))).mp hm
          rw [hi0] at hh
          by_contra hne
          obtain ⟨rfl, _⟩ := clo_zero h hh (.inr hne)
          exact hne rfl
        · exact hb0
      · intro s hs it la hh
        rw [hs0] at hs; cases hs
        have hm : it ∈ core i0 := by
          rw [← hc0]; exact (mem_core (hM.wf s0 (List.mem_of_getElem? hs0))).mpr ⟨la, hh⟩
        obtain ⟨la', hh⟩ := (mem_core (hM.lrwf i0 (List.mem_of_getElem? h0))).mp hm
        exact ⟨la', (hi0 _ _).mp hh⟩
      · intro s hs q la hh hq
        obtain ⟨t, ht, hc⟩ := hM.first s hs
        have hq0 : (q, 0) ∈ core t := by rw [hc]; exact (mem_core (hM.wf s hs)).mpr ⟨la, hh⟩
        obtain ⟨la1, hh⟩ := (mem_core (hM.lrwf t ht)).mp hq0
        obtain ⟨it, la', h1, p, B, p', _, _, h2, h3, h4, h5, _⟩ := reach_asked (hM.lrreach t ht) hh hq
        have hit : it ∈ core s := by rw [← hc]; exact (mem_core (hM.lrwf t ht)).mpr ⟨la', h1⟩
        obtain ⟨la2, h1'⟩ := (mem_core (hM.wf s hs)).mp hit
        exact ⟨it, la2, p, p', h1', h2, h4, by rw [h5]; exact h3⟩
      · intro s hs d' la hh
        obtain ⟨t, ht, hh⟩ := hM.has s hs _ la hh
        exact reach_zeroLa h (hM.lrreach t ht) d' la hh
      · intro i k b
        rw [hact, Table.tryIndex_nil, mem_allCells]
        simp only [reduceCtorEq, false_or, Nat.zero_add]
        constructor
        · rintro ⟨n, s, hs, ⟨it, las⟩, he, hx⟩
          have := cells_state hx
          simp only at this
          subst this
          exact ⟨s, it, hs, (mem_cells h (hrng s (List.mem_of_getElem? hs)) (hM.wf s (List.mem_of_getElem? hs))).mp
            ⟨las, he, hx⟩⟩
        · rintro ⟨s, it, hs, hc⟩
          obtain ⟨las, he, hx⟩ := (mem_cells (i := i) h (hrng s (List.mem_of_getElem? hs))
            (hM.wf s (List.mem_of_getElem? hs))).mpr hc
          exact ⟨i, s, hs, (it, las), he, hx⟩
      · intro s hs it it' k b b' hb hb'
        obtain ⟨n, hns⟩ := List.getElem?_of_mem hs
        obtain ⟨las, he, hx⟩ := (mem_cells (i := n) h (hrng s hs) (hM.wf s hs)).mpr hb
        obtain ⟨las', he', hx'⟩ := (mem_cells (i := n) h (hrng s hs) (hM.wf s hs)).mpr hb'
        have heq := hn n s hns (it, las) he (it', las') he' (n, k, b) (by simpa using hx) (n, k, b')
          (by simpa using hx') rfl
        simp only [Prod.mk.injEq] at heq
        refine ⟨heq.1, ?_⟩
        have hall : ∀ {x y}, x ∈ allCells g d lalr lr m 0 lalr → y ∈ allCells g d lalr lr m 0 lalr →
            key x = key y → x = y := by
          intro x y hx hy hk
          have hnd := (allCells_nodup lalr 0 hM.wf).mpr hn
          exact List.inj_on_of_nodup_map hnd hx hy hk
        have h1 := hall (x := (n, k, b)) (y := (n, k, b'))
          ((mem_allCells lalr 0 _).mpr ⟨n, s, hns, _, he, by simpa using hx⟩)
          ((mem_allCells lalr 0 _).mpr ⟨n, s, hns, _, he', by simpa using hx'⟩) rfl
        simpa using h1
      · intro i A j
        rw [hgo2, Table.tryIndex_nil]
        simp only [reduceCtorEq, false_or, Nat.zero_add]
        constructor
        · rintro ⟨n, s, hs, rfl, _, hl⟩; exact ⟨s, hs, hl⟩
        · rintro ⟨s, hs, hl⟩
          exact ⟨i, s, hs, rfl, lookup_nt h hM hl, hl⟩
      · intro s hs x j hl
        obtain ⟨r, s', w1, w2, h1, h2⟩ := hM.lookup_some h hs hl
        have hs'm := List.mem_of_getElem? h1
        refine ⟨s', h1, fun it la hh => ?_, (has_ne_nil (hM.wf s' hs'm)).mp (hM.ne s' hs'm)⟩
        obtain ⟨la', hh⟩ := (mem_core w1).mp (h2 it ((mem_core (hM.wf s' hs'm)).mpr ⟨la, hh⟩))
        exact ⟨la', (w2 it la').mp hh⟩

theorem tabOk_of_merged (h : GOk g) (hM : Merged g d lr lalr m) {action : Table Nat Action} {got : Table Str Nat}
    (ht : makeLalrTables g d lalr lr m = .ok (action, got)) :
    TabOk g lalr action got (lookup g d lalr lr m) := by
  refine ⟨tabSound_of h (hM.any h) ht, ?_, ?_⟩
  · intro s hs it la q b hh hask
    obtain ⟨t, ht, hc, hh⟩ := (hM.has s hs it la).mp hh
    exact (hM.has s hs _ _).mpr ⟨t, ht, hc, reach_closed (hM.lrreach t ht) hh hask⟩
  · intro s hs x j hl
    obtain ⟨r, s', hr, w1, w2, h1, h2, h3, h4⟩ := hM.lookup_some h hs hl
    refine ⟨s', h1, ?_, fun it la hc => h3 it la ((w2 it la).mpr hc), ?_⟩
    · intro it la hh
      have : it ∈ core r := by
        rw [← h2]; exact (mem_core (hM.wf s' (List.mem_of_getElem? h1))).mpr ⟨la, hh⟩
      obtain ⟨la', hh⟩ := (mem_core w1).mp this
      exact ⟨la', (w2 it la').mp hh⟩
    · obtain ⟨it, la, hh⟩ := (has_ne_nil w1).mp h4
      exact clo_ne.mp ⟨it, la, (w2 it la).mp hh⟩

theorem makeTables_ok {action : Table Nat Action} {got : Table Str Nat} {states : List ItemSet}
    (ht : makeTables hash g d = .ok (action, got, states)) :
    ∃ lr m, items g d = .ok lr ∧ mergeCores hash lr = .ok (states, m) ∧
      makeLalrTables g d states lr m = .ok (action, got) := by
  unfold makeTables at ht
  cases hlr : items g d with
  | error e => simp [hlr, bind, Except.bind] at ht
  | ok lr =>
    cases hm : mergeCores hash lr with
    | error e => simp [hlr, hm, bind, Except.bind] at ht
    | ok x =>
      obtain ⟨lalr, m⟩ := x
      cases hl : makeLalrTables g d lalr lr m with
      | error e => simp [hlr, hm, hl, bind, Except.bind] at ht
      | ok y =>
        obtain ⟨a, t⟩ := y
        simp only [hlr, hm, hl, bind, Except.bind, pure, Except.pure, Except.ok.injEq, Prod.mk.injEq] at ht
        obtain ⟨rfl, rfl, rfl⟩ := ht
        exact ⟨lr, m, rfl, hm, hl⟩

/-- Without a condition on the hash. -/
theorem tabSound (h : GOk g) {action : Table Nat Action} {got : Table Str Nat} {states : List ItemSet}
    (ht : makeTables hash g d = .ok (action, got, states)) :
    ∃ look, TabSound g states action got look := by
  obtain ⟨lr, m, hlr, hm, hl⟩ := makeTables_ok ht
  exact ⟨_, tabSound_of h (mergedAny_of h hlr hm) hl⟩

theorem tabOk (h : GOk g) {action : Table Nat Action} {got : Table Str Nat} {states : List ItemSet}
    (hinj : ∀ lr, items g d = .ok lr → ∀ s ∈ lr, ∀ t ∈ lr, hash (core s) = hash (core t) → core s = core t)
    (ht : makeTables hash g d = .ok (action, got, states)) :
    ∃ lr m, items g d = .ok lr ∧ mergeCores hash lr = .ok (states, m) ∧ Merged g d lr states m ∧
      makeLalrTables g d states lr m = .ok (action, got) ∧
      TabOk g states action got (lookup g d states lr m) := by
  obtain ⟨lr, m, hlr, hm, hl⟩ := makeTables_ok ht
  have hM := merged_of h hlr (hinj lr hlr) hm
  exact ⟨lr, m, hlr, hm, hM, hl, tabOk_of_merged h hM hl⟩
end

end Lalr
end Verif
