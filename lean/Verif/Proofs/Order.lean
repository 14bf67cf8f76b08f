import Verif.Model.Grammar

/-! Lemmas about the collection models of `Model/Prelude.lean`. -/

set_option linter.unusedSectionVars false
set_option linter.unusedSimpArgs false

namespace Verif

instance : LawfulBOrd Nat where
  irrefl a := by simp [blt]
  trans a b c := by simp [blt]; omega
  tri a b := by simp [blt]; omega

theorem strLt_irrefl : ∀ s : Str, strLt s s = false
  | [] => rfl
  | a :: s => by simp [strLt, strLt_irrefl s]

theorem strLt_trans : ∀ s t u : Str, strLt s t = true → strLt t u = true → strLt s u = true
  | [], [], _, h, _ => by simp [strLt] at h
  | [], _ :: _, [], _, h => by simp [strLt] at h
  | [], _ :: _, _ :: _, _, _ => by simp [strLt]
  | _ :: _, [], _, h, _ => by simp [strLt] at h
  | _ :: _, _ :: _, [], _, h => by simp [strLt] at h
  | a :: s, b :: t, c :: u, h1, h2 => by
    have ih := strLt_trans s t u
    simp only [strLt] at *
    grind

theorem strLt_tri : ∀ s t : Str, strLt s t = false → strLt t s = false → s = t
  | [], [], _, _ => rfl
  | [], _ :: _, h, _ => by simp [strLt] at h
  | _ :: _, [], _, h => by simp [strLt] at h
  | a :: s, b :: t, h1, h2 => by
    have ih := strLt_tri s t
    simp only [strLt] at *
    have : a.toNat = b.toNat → a = b := fun h => Char.toNat_inj.mp h
    grind

instance : LawfulBOrd Str where
  irrefl := strLt_irrefl
  trans := strLt_trans
  tri := strLt_tri

theorem blt_iff_match (a b : Match) :
    blt a b = true ↔ a.lo < b.lo ∨ (a.lo = b.lo ∧ a.hi < b.hi) := by
  simp only [blt, Match.compare]
  rcases Nat.lt_trichotomy a.lo b.lo with h | h | h
  · have : compare a.lo b.lo = .lt := Nat.compare_eq_lt.mpr h
    simp [this]; omega
  · have : compare a.lo b.lo = .eq := Nat.compare_eq_eq.mpr h
    simp [this, h, Nat.compare_eq_lt]
  · have : compare a.lo b.lo = .gt := Nat.compare_eq_gt.mpr h
    simp [this]; omega

instance : LawfulBOrd Match where
  irrefl a := by
    rw [Bool.eq_false_iff]; intro h; rw [blt_iff_match] at h; omega
  trans a b c := by simp only [blt_iff_match]; omega
  tri a b := by
    intro h1 h2
    rw [Bool.eq_false_iff, Ne, blt_iff_match] at h1 h2
    cases a; cases b; simp at *; omega

instance {α β : Type} [BOrd α] [BOrd β] [LawfulBOrd α] [LawfulBOrd β] : LawfulBOrd (α × β) where
  irrefl a := by simp [blt]; simp [LawfulBOrd.irrefl]
  trans := by
    rintro ⟨a, x⟩ ⟨b, y⟩ ⟨c, z⟩ h1 h2
    simp only [blt] at *
    have t := LawfulBOrd.trans a b c
    have t1 := LawfulBOrd.tri a b
    have t2 := LawfulBOrd.tri b c
    have t3 := LawfulBOrd.irrefl a
    have t4 := LawfulBOrd.irrefl b
    have t5 := LawfulBOrd.trans x y z
    have t6 := LawfulBOrd.trans c a b
    have t7 := LawfulBOrd.trans b c a
    grind
  tri := by
    rintro ⟨a, x⟩ ⟨b, y⟩ h1 h2
    simp only [blt] at *
    have t1 := LawfulBOrd.tri a b
    have t2 := LawfulBOrd.tri x y
    have t3 := LawfulBOrd.irrefl a
    grind

theorem blt_sym_iff (a b : Sym) :
    blt a b = true ↔ a.rank < b.rank ∨ (a.rank = b.rank ∧ blt a.text b.text = true) := by
  simp only [BOrd.blt]; grind

theorem Sym.ext_rank_text {a b : Sym} (h1 : a.rank = b.rank) (h2 : a.text = b.text) : a = b := by
  cases a <;> cases b <;> simp_all [Sym.rank, Sym.text]

instance : LawfulBOrd Sym where
  irrefl a := by
    rw [Bool.eq_false_iff]; intro h; rw [blt_sym_iff] at h
    have := LawfulBOrd.irrefl a.text
    grind
  trans a b c := by
    simp only [blt_sym_iff]
    have := LawfulBOrd.trans a.text b.text c.text
    grind
  tri a b := by
    intro h1 h2
    rw [Bool.eq_false_iff, Ne, blt_sym_iff] at h1 h2
    have := LawfulBOrd.tri a.text b.text
    apply Sym.ext_rank_text <;> grind

/-- Strictly increasing list: the content of a `BTreeSet`. -/
def Sorted {α : Type} [BOrd α] (l : List α) : Prop := l.Pairwise fun a b => blt a b = true

section
variable {α : Type} [BOrd α] [LawfulBOrd α]

theorem blt_ne {a b : α} (h : blt a b = true) : a ≠ b := by
  rintro rfl; simp [LawfulBOrd.irrefl] at h

theorem blt_asymm {a b : α} (h : blt a b = true) : blt b a = false := by
  rw [Bool.eq_false_iff]; intro h2
  have := LawfulBOrd.trans a b a h h2
  simp [LawfulBOrd.irrefl] at this

theorem mem_oinsert {a x : α} : ∀ {l : List α}, x ∈ oinsert a l ↔ x = a ∨ x ∈ l
  | [] => by simp [oinsert]
  | b :: l => by
    have ih := mem_oinsert (a := a) (x := x) (l := l)
    have := LawfulBOrd.tri a b
    simp only [oinsert]
    grind

theorem oinsert_of_mem {a : α} : ∀ {l : List α}, Sorted l → a ∈ l → oinsert a l = l
  | [], _, h => by simp at h
  | b :: l, hs, h => by
    have hs' := List.pairwise_cons.mp hs
    simp only [oinsert]
    rcases List.mem_cons.mp h with rfl | h
    · simp [LawfulBOrd.irrefl]
    · have hb := hs'.1 a h
      simp [blt_asymm hb, hb, oinsert_of_mem hs'.2 h]

theorem sorted_oinsert {a : α} : ∀ {l : List α}, Sorted l → Sorted (oinsert a l)
  | [], _ => by simp [oinsert, Sorted]
  | b :: l, hs => by
    have hs' := List.pairwise_cons.mp hs
    simp only [oinsert]
    split
    · rename_i h
      refine List.pairwise_cons.mpr ⟨?_, hs⟩
      intro c hc
      rcases List.mem_cons.mp hc with rfl | hc
      · exact h
      · exact LawfulBOrd.trans _ _ _ h (hs'.1 c hc)
    · split
      · rename_i h
        refine List.pairwise_cons.mpr ⟨?_, sorted_oinsert hs'.2⟩
        intro c hc
        rcases mem_oinsert.mp hc with rfl | hc
        · exact h
        · exact hs'.1 c hc
      · exact hs

theorem foldl_oinsert_spec (l : List α) : ∀ s : List α, Sorted s →
    Sorted (l.foldl (fun s a => oinsert a s) s) ∧
    ∀ x, x ∈ l.foldl (fun s a => oinsert a s) s ↔ x ∈ l ∨ x ∈ s := by
  induction l with
  | nil => intro s hs; simpa using hs
  | cons a l ih =>
    intro s hs
    obtain ⟨h1, h2⟩ := ih (oinsert a s) (sorted_oinsert hs)
    refine ⟨h1, fun x => ?_⟩
    rw [List.foldl_cons, h2, mem_oinsert, List.mem_cons]
    grind

theorem sorted_ofList (l : List α) : Sorted (ofList l) :=
  (foldl_oinsert_spec l [] (by simp [Sorted])).1

theorem mem_ofList {l : List α} {x : α} : x ∈ ofList l ↔ x ∈ l := by
  have := (foldl_oinsert_spec l [] (by simp [Sorted])).2 x
  simpa [ofList] using this

theorem Sorted.nodup {l : List α} (h : Sorted l) : l.Nodup :=
  h.imp blt_ne

theorem sorted_ext {l₁ l₂ : List α} (h₁ : Sorted l₁) (h₂ : Sorted l₂)
    (h : ∀ x, x ∈ l₁ ↔ x ∈ l₂) : l₁ = l₂ := by
  induction l₁ generalizing l₂ with
  | nil =>
    cases l₂ with
    | nil => rfl
    | cons b l₂ => have := (h b).mpr (by simp); simp at this
  | cons a l₁ ih =>
    cases l₂ with
    | nil => have := (h a).mp (by simp); simp at this
    | cons b l₂ =>
      have p₁ := List.pairwise_cons.mp h₁
      have p₂ := List.pairwise_cons.mp h₂
      have hab : a = b := by
        have ha := List.mem_cons.mp ((h a).mp (by simp))
        have hb := List.mem_cons.mp ((h b).mpr (by simp))
        rcases ha with ha | ha
        · exact ha
        · rcases hb with hb | hb
          · exact hb.symm
          · have h3 := p₂.1 a ha
            have h4 := p₁.1 b hb
            rw [blt_asymm h3] at h4; cases h4
      subst hab
      congr 1
      apply ih p₁.2 p₂.2
      intro x
      have hx := h x
      simp only [List.mem_cons] at hx
      constructor
      · intro hm
        rcases hx.mp (Or.inr hm) with rfl | h'
        · have := p₁.1 x hm; simp [LawfulBOrd.irrefl] at this
        · exact h'
      · intro hm
        rcases hx.mpr (Or.inr hm) with rfl | h'
        · have := p₂.1 x hm; simp [LawfulBOrd.irrefl] at this
        · exact h'

end

section
variable {κ ν : Type} [BOrd κ] [LawfulBOrd κ] [DecidableEq κ]

theorem mget_minsert (k k' : κ) (v : ν) : ∀ m : List (κ × ν),
    mget k (minsert k' v m) = if k = k' then some v else mget k m
  | [] => by simp [minsert, mget]
  | (k₂, v₂) :: m => by
    have ih := mget_minsert k k' v m
    have := LawfulBOrd.tri k' k₂
    have := LawfulBOrd.irrefl k'
    simp only [minsert]
    by_cases h1 : blt k' k₂ = true
    · rw [if_pos h1]; simp only [mget]
    · rw [if_neg h1]
      by_cases h2 : blt k₂ k' = true
      · rw [if_pos h2]; simp only [mget, ih]
        have := blt_ne h2
        grind
      · rw [if_neg h2]
        have : k' = k₂ := by grind
        subst this
        simp only [mget]
        grind

theorem mem_keys_minsert {k x : κ} {v : ν} : ∀ {m : List (κ × ν)},
    x ∈ (minsert k v m).map Prod.fst ↔ x = k ∨ x ∈ m.map Prod.fst
  | [] => by simp [minsert]
  | (k₂, v₂) :: m => by
    have ih := mem_keys_minsert (k := k) (x := x) (v := v) (m := m)
    have := LawfulBOrd.tri k k₂
    simp only [minsert]
    split
    · simp
    · split
      · simp only [List.map_cons, List.mem_cons, ih]; grind
      · simp only [List.map_cons, List.mem_cons]; grind

/-- A `BTreeMap`: strictly increasing keys. -/
def MSorted (m : List (κ × ν)) : Prop := Sorted (m.map Prod.fst)

theorem msorted_minsert {k : κ} {v : ν} : ∀ {m : List (κ × ν)}, MSorted m → MSorted (minsert k v m)
  | [], _ => by simp [minsert, MSorted, Sorted]
  | (k₂, v₂) :: m, hs => by
    have hs' := List.pairwise_cons.mp hs
    simp only [minsert]
    split
    · rename_i h
      refine List.pairwise_cons.mpr ⟨?_, hs⟩
      intro c hc
      rcases List.mem_cons.mp hc with rfl | hc
      · exact h
      · exact LawfulBOrd.trans _ _ _ h (hs'.1 c hc)
    · split
      · rename_i h
        refine List.pairwise_cons.mpr ⟨?_, msorted_minsert hs'.2⟩
        intro c hc
        rcases mem_keys_minsert.mp hc with rfl | hc
        · exact h
        · exact hs'.1 c hc
      · rename_i h1 h2
        have : k = k₂ := LawfulBOrd.tri _ _ (by simpa using h1) (by simpa using h2)
        subst this
        exact hs

theorem mget_eq_some_iff {k : κ} {v : ν} : ∀ {m : List (κ × ν)}, MSorted m →
    (mget k m = some v ↔ (k, v) ∈ m)
  | [], _ => by simp [mget]
  | (k₂, v₂) :: m, hs => by
    have hs' := List.pairwise_cons.mp hs
    have ih := mget_eq_some_iff (k := k) (v := v) (m := m) hs'.2
    simp only [mget]
    by_cases h : k = k₂
    · subst h
      have : (k, v) ∉ m := fun hm => by
        have := hs'.1 k (List.mem_map.mpr ⟨_, hm, rfl⟩)
        simp [LawfulBOrd.irrefl] at this
      simp [this, eq_comm]
    · simp [h, ih]

theorem mget_isSome_iff {k : κ} : ∀ {m : List (κ × ν)}, (mget k m).isSome = true ↔ k ∈ m.map Prod.fst
  | [] => by simp [mget]
  | (k₂, v₂) :: m => by
    have ih := mget_isSome_iff (k := k) (m := m)
    simp only [mget, List.map_cons, List.mem_cons]
    by_cases h : k = k₂ <;> simp [h]
    simpa using ih

theorem mget_eq_none_iff {k : κ} {m : List (κ × ν)} : mget k m = none ↔ k ∉ m.map Prod.fst := by
  have := mget_isSome_iff (k := k) (m := m)
  cases h : mget k m <;> simp_all

theorem mget_mem {k : κ} {v : ν} : ∀ {m : List (κ × ν)}, mget k m = some v → (k, v) ∈ m
  | [], h => by simp [mget] at h
  | (k₂, v₂) :: m, h => by
    simp only [mget] at h
    split at h
    · simp_all
    · exact List.mem_cons_of_mem _ (mget_mem h)

theorem msorted_ext {m₁ m₂ : List (κ × ν)} (h₁ : MSorted m₁) (h₂ : MSorted m₂)
    (h : ∀ k, mget k m₁ = mget k m₂) : m₁ = m₂ := by
  have hk : m₁.map Prod.fst = m₂.map Prod.fst := by
    apply sorted_ext h₁ h₂
    intro x
    rw [← mget_isSome_iff, ← mget_isSome_iff, h]
  induction m₁ generalizing m₂ with
  | nil => cases m₂ with
    | nil => rfl
    | cons => simp at hk
  | cons p m₁ ih =>
    cases m₂ with
    | nil => simp at hk
    | cons q m₂ =>
      obtain ⟨k, v⟩ := p
      obtain ⟨k', v'⟩ := q
      simp only [List.map_cons, List.cons.injEq] at hk
      obtain ⟨rfl, hk⟩ := hk
      have p₁ := List.pairwise_cons.mp h₁
      have p₂ := List.pairwise_cons.mp h₂
      have hv := h k
      simp only [mget, if_true, Option.some.injEq] at hv
      subst hv
      congr 1
      apply ih p₁.2 p₂.2 _ hk
      intro x
      have hx := h x
      simp only [mget] at hx
      by_cases hxk : x = k
      · subst hxk
        have n₁ : x ∉ m₁.map Prod.fst := fun hm => by
          have := p₁.1 x hm; simp [LawfulBOrd.irrefl] at this
        have n₂ : x ∉ m₂.map Prod.fst := fun hm => by
          have := p₂.1 x hm; simp [LawfulBOrd.irrefl] at this
        rw [mget_eq_none_iff.mpr n₁, mget_eq_none_iff.mpr n₂]
      · simpa [hxk] using hx

end

theorem mem_hinsert {a x : Nat} {l : List Nat} : x ∈ hinsert a l ↔ x = a ∨ x ∈ l := by
  unfold hinsert; split <;> grind

end Verif
