import Verif.Model.Dfa
import Verif.Proofs.Order

/-! `remove_overlap`: termination, assertions, coverage, refinement. -/

namespace Verif
namespace Overlap

/-- `c` lies in the range. -/
def In (c : Nat) (m : Match) : Prop := m.lo ≤ c ∧ c < m.hi

/-- Containment of ranges as sets of code points. -/
def Sub (a b : Match) : Prop := ∀ c, In c a → In c b

/-- No common code point. -/
def Disj (a b : Match) : Prop := ∀ c, In c a → ¬ In c b

theorem isEmpty_iff {m : Match} : m.isEmpty = true ↔ m.hi ≤ m.lo := by
  simp [Match.isEmpty]

theorem intersects_iff {a b : Match} : a.intersects b = true ↔ ∃ c, In c a ∧ In c b := by
  simp only [Match.intersects, Match.isEmpty, Match.containsU32, Bool.and_eq_true,
    Bool.or_eq_true, Bool.not_not, decide_eq_true_eq, In]
  constructor
  · rintro ⟨⟨h1, h2⟩, h3 | h3⟩
    · exact ⟨b.lo, by omega, by omega⟩
    · exact ⟨a.lo, by omega, by omega⟩
  · rintro ⟨c, h1, h2⟩
    omega

theorem intersects_num {a b : Match} : a.intersects b = true ↔ max a.lo b.lo < min a.hi b.hi := by
  rw [intersects_iff]
  constructor
  · rintro ⟨c, h1, h2⟩; unfold In at *; omega
  · intro h; exact ⟨max a.lo b.lo, by unfold In; omega, by unfold In; omega⟩

theorem intersects_comm (a b : Match) : a.intersects b = b.intersects a := by
  rw [Bool.eq_iff_iff, intersects_num, intersects_num]; omega

theorem isDisjoint_iff {a b : Match} : a.isDisjoint b = true ↔ Disj a b := by
  unfold Match.isDisjoint
  rw [Bool.not_eq_true', ← Bool.not_eq_true, intersects_iff]
  unfold Disj
  constructor
  · intro h c h1 h2; exact h ⟨c, h1, h2⟩
  · rintro h ⟨c, h1, h2⟩; exact h c h1 h2

/-- Three pieces of two overlapping ranges (dfa.rs:319-334). -/
def lowOf (r o : Match) : Match := ⟨min r.lo o.lo, max r.lo o.lo⟩
def midOf (r o : Match) : Match := ⟨max r.lo o.lo, min r.hi o.hi⟩
def mxOf (r o : Match) : Match := ⟨min r.hi o.hi, max r.hi o.hi⟩

/-- Relational form of `add_range` on the part of the list from `start` on. -/
inductive Ins : Match → List Match → List Match → Prop
  | empty {r l} : r.isEmpty = true → Ins r l l
  | nil {r} : r.isEmpty = false → Ins r [] [r]
  | skip {r p l l'} : r.isEmpty = false → p.intersects r = false → Ins r l l' → Ins r (p :: l) (p :: l')
  | same {r l} : r.isEmpty = false → Ins r (r :: l) (r :: l)
  | split {r o l l₁ l₂} : o.intersects r = true → o ≠ r → Ins (midOf r o) l l₁ →
      Ins (mxOf r o) l₁ l₂ → Ins r (o :: l) (lowOf r o :: l₂)

/-- Length of a range. -/
abbrev len (m : Match) : Nat := m.hi - m.lo

/-- Total length of a list of ranges. -/
def total (l : List Match) : Nat := (l.map len).sum

@[simp] theorem total_cons (m : Match) (l : List Match) : total (m :: l) = len m + total l := rfl
@[simp] theorem total_nil : total [] = 0 := rfl

theorem Ins.total_le {r l l'} (h : Ins r l l') : total l' ≤ total l + len r := by
  induction h with
  | empty _ => omega
  | nil _ => simp
  | skip _ _ _ ih => simp only [total_cons]; omega
  | same _ => simp
  | @split r o l l₁ l₂ h _ _ _ ih1 ih2 =>
    rw [intersects_num] at h
    simp only [total_cons, lowOf, midOf, mxOf, len] at *
    omega

theorem Ins.skips {r l l'} (hr : r.isEmpty = false) (h : Ins r l l') :
    ∀ A : List Match, (∀ p ∈ A, p.intersects r = false) → Ins r (A ++ l) (A ++ l')
  | [], _ => h
  | p :: A, hA => .skip hr (hA p (by simp)) (Ins.skips hr h A fun q hq => hA q (by simp [hq]))

theorem addRange_ins : ∀ (fuel : Nat) (r : Match) (pre post : List Match),
    len r + total post ≤ fuel →
    ∃ post', addRange fuel r pre.length (pre ++ post) = .ok (pre ++ post') ∧ Ins r post post' := by
  intro fuel
  induction fuel with
  | zero =>
    intro r pre post hf
    have : r.isEmpty = true := by rw [isEmpty_iff]; simp only [len] at hf; omega
    exact ⟨post, by unfold addRange addStep; simp [this], .empty this⟩
  | succ fuel ih =>
    intro r pre post hf
    by_cases hr : r.isEmpty = true
    · exact ⟨post, by unfold addRange addStep; simp [hr], .empty hr⟩
    have hr' : r.isEmpty = false := by simpa using hr
    cases hx : post.findIdx? (fun m => m.intersects r) with
    | none =>
      refine ⟨post ++ [r], ?_, ?_⟩
      · unfold addRange addStep
        simp [hr', hx]
      · have hA : ∀ p ∈ post, p.intersects r = false := by
          intro p hp
          have := (List.findIdx?_eq_none_iff.mp hx) p hp
          simpa using this
        simpa using Ins.skips hr' (.nil hr') post hA
    | some idx =>
      obtain ⟨hlt, hint, hbefore⟩ := List.findIdx?_eq_some_iff_getElem.mp hx
      obtain ⟨A, o, B, hpost, hlen⟩ : ∃ A o B, post = A ++ o :: B ∧ A.length = idx :=
        ⟨post.take idx, post[idx], post.drop (idx + 1), by simp, by simp; omega⟩
      subst hpost
      subst hlen
      have ho : (A ++ o :: B)[A.length] = o := by simp
      rw [ho] at hint
      have hA : ∀ p ∈ A, p.intersects r = false := by
        intro p hp
        obtain ⟨j, hj, rfl⟩ := List.mem_iff_getElem.mp hp
        have := hbefore j hj
        rw [List.getElem_append_left hj] at this
        simpa using this
      have hint' := hint
      rw [intersects_num] at hint'
      have hget : (pre ++ (A ++ o :: B)).getD (A.length + pre.length) ⟨0, 0⟩ = o := by
        rw [List.getD_eq_getElem?_getD, List.getElem?_append_right (by omega)]
        simp
      have hset : ∀ x : Match, (pre ++ (A ++ o :: B)).set (A.length + pre.length) x
          = (pre ++ A ++ [x]) ++ B := by
        intro x
        rw [List.set_append_right _ _ (by omega)]
        simp
      have hidx : A.length + pre.length + 1 = (pre ++ A ++ [lowOf r o]).length := by simp; omega
      by_cases hor : o = r
      · subst hor
        refine ⟨A ++ o :: B, ?_, Ins.skips hr' (.same hr') A hA⟩
        unfold addRange addStep
        simp only [hr', Bool.false_eq_true, if_false, List.drop_left, hx, hget, if_true]
      · have htot : total (A ++ o :: B) = total A + len o + total B := by
          simp [total]; omega
        rw [htot] at hf
        obtain ⟨B1, e1, i1⟩ := ih (midOf r o) (pre ++ A ++ [lowOf r o]) B (by
          simp only [midOf, len] at *; omega)
        have ht := i1.total_le
        obtain ⟨B2, e2, i2⟩ := ih (mxOf r o) (pre ++ A ++ [lowOf r o]) B1 (by
          simp only [midOf, mxOf, len] at *; omega)
        refine ⟨A ++ lowOf r o :: B2, ?_, Ins.skips hr' (.split hint hor i1 i2) A hA⟩
        have d1 : (lowOf r o).isDisjoint (midOf r o) = true := by
          rw [isDisjoint_iff]; intro c h1 h2; simp only [In, lowOf, midOf] at *; omega
        have d2 : (lowOf r o).isDisjoint (mxOf r o) = true := by
          rw [isDisjoint_iff]; intro c h1 h2; simp only [In, lowOf, mxOf] at *; omega
        have d3 : (midOf r o).isDisjoint (mxOf r o) = true := by
          rw [isDisjoint_iff]; intro c h1 h2; simp only [In, midOf, mxOf] at *; omega
        unfold addRange addStep
        simp only [hr', Bool.false_eq_true, if_false, List.drop_left, hx, hget, hor]
        rw [hset]
        simp only [lowOf, midOf, mxOf] at d1 d2 d3
        simp only [d1, d2, d3, Bool.not_true, Bool.or_false, Bool.false_eq_true, if_false]
        simp only [lowOf, midOf, mxOf] at e1 e2 hidx
        rw [hidx, e1]
        simp only [bind, Except.bind]
        rw [e2]
        simp [lowOf]

/-- Relational form of the whole insertion loop. -/
inductive InsAll : List Match → List Match → List Match → Prop
  | nil {l} : InsAll [] l l
  | cons {r rs l l₁ l₂} : Ins r l l₁ → InsAll rs l₁ l₂ → InsAll (r :: rs) l l₂

theorem addAll_ins : ∀ (rs l : List Match), ∃ l', addAll rs l = .ok l' ∧ InsAll rs l l'
  | [], l => ⟨l, rfl, .nil⟩
  | r :: rs, l => by
    obtain ⟨l₁, h1, i1⟩ := addRange_ins (size r 0 l) r [] l (by simp [size, total])
    simp only [List.nil_append, List.length_nil] at h1
    obtain ⟨l₂, h2, i2⟩ := addAll_ins rs l₁
    exact ⟨l₂, by simp [addAll, h1, bind, Except.bind, h2], .cons i1 i2⟩

/-! ## Coverage and refinement -/

theorem Ins.cover {r l l'} (h : Ins r l l') (c : Nat) :
    (∃ p ∈ l', In c p) ↔ In c r ∨ ∃ p ∈ l, In c p := by
  induction h with
  | @empty r l he =>
    rw [isEmpty_iff] at he
    constructor
    · exact .inr
    · rintro (h | h)
      · unfold In at h; omega
      · exact h
  | nil _ => simp
  | skip _ _ _ ih =>
    simp only [List.mem_cons, exists_eq_or_imp, ih]
    constructor
    · rintro (h | h | h) <;> simp [h]
    · rintro (h | h | h) <;> simp [h]
  | same _ => simp
  | @split r o l l₁ l₂ h _ _ _ ih1 ih2 =>
    rw [intersects_num] at h
    simp only [List.mem_cons, exists_eq_or_imp, ih2, ih1]
    have : (In c (lowOf r o) ∨ In c (mxOf r o) ∨ In c (midOf r o)) ↔ (In c r ∨ In c o) := by
      simp only [In, lowOf, midOf, mxOf]; omega
    constructor
    · rintro (h | h | h | h)
      · rcases this.mp (.inl h) with h | h <;> simp [h]
      · rcases this.mp (.inr (.inl h)) with h | h <;> simp [h]
      · rcases this.mp (.inr (.inr h)) with h | h <;> simp [h]
      · exact .inr (.inr h)
    · rintro (h | h | h)
      · rcases this.mpr (.inl h) with h | h | h <;> simp [h]
      · rcases this.mpr (.inr h) with h | h | h <;> simp [h]
      · exact .inr (.inr (.inr h))

theorem InsAll.cover {rs l l'} (h : InsAll rs l l') (c : Nat) :
    (∃ p ∈ l', In c p) ↔ (∃ r ∈ rs, In c r) ∨ ∃ p ∈ l, In c p := by
  induction h with
  | nil => simp
  | @cons r rs l l₁ l₂ h1 _ ih =>
    rw [ih, h1.cover c]
    simp only [List.mem_cons, exists_eq_or_imp]
    constructor
    · rintro (h | h | h) <;> simp [h]
    · rintro ((h | h) | h) <;> simp [h]

theorem Sub.trans {a b c : Match} (h1 : Sub a b) (h2 : Sub b c) : Sub a c :=
  fun x hx => h2 x (h1 x hx)

/-- Every point of the new range and of every old range is in a piece inside that
range. -/
theorem Ins.refine {r l l'} (h : Ins r l l') :
    (∀ c, In c r → ∃ p ∈ l', In c p ∧ Sub p r) ∧
    (∀ o ∈ l, ∀ c, In c o → ∃ p ∈ l', In c p ∧ Sub p o) := by
  induction h with
  | @empty r l he =>
    rw [isEmpty_iff] at he
    exact ⟨fun c hc => by unfold In at hc; omega, fun o ho c hc => ⟨o, ho, hc, fun _ h => h⟩⟩
  | @nil r _ => exact ⟨fun c hc => ⟨r, by simp, hc, fun _ h => h⟩, by simp⟩
  | @skip r p l l' _ _ _ ih =>
    refine ⟨?_, ?_⟩
    · intro c hc
      obtain ⟨q, hq, h⟩ := ih.1 c hc
      exact ⟨q, by simp [hq], h⟩
    · intro o ho c hc
      rcases List.mem_cons.mp ho with rfl | ho
      · exact ⟨o, by simp, hc, fun _ h => h⟩
      · obtain ⟨q, hq, h⟩ := ih.2 o ho c hc
        exact ⟨q, by simp [hq], h⟩
  | @same r l _ =>
    exact ⟨fun c hc => ⟨r, by simp, hc, fun _ h => h⟩,
      fun o ho c hc => ⟨o, ho, hc, fun _ h => h⟩⟩
  | @split r o l l₁ l₂ h _ _ _ ih1 ih2 =>
    rw [intersects_num] at h
    have two : ∀ x, In x (midOf r o) → ∃ p ∈ lowOf r o :: l₂, In x p ∧ Sub p (midOf r o) := by
      intro x hx
      obtain ⟨p, hp, h1, h2⟩ := ih1.1 x hx
      obtain ⟨q, hq, h3, h4⟩ := ih2.2 p hp x h1
      exact ⟨q, by simp [hq], h3, h4.trans h2⟩
    have three : ∀ x, In x (mxOf r o) → ∃ p ∈ lowOf r o :: l₂, In x p ∧ Sub p (mxOf r o) := by
      intro x hx
      obtain ⟨p, hp, h1, h2⟩ := ih2.1 x hx
      exact ⟨p, by simp [hp], h1, h2⟩
    have gen : ∀ t c, (t = r ∨ t = o) → In c t → ∃ p ∈ lowOf r o :: l₂, In c p ∧ Sub p t := by
      intro t c ht hc
      by_cases hm : In c (midOf r o)
      · obtain ⟨p, hp, h1, h2⟩ := two c hm
        refine ⟨p, hp, h1, h2.trans ?_⟩
        intro x hx
        rcases ht with rfl | rfl <;> simp only [In, midOf] at * <;> omega
      · by_cases hl : In c (lowOf r o)
        · refine ⟨lowOf r o, by simp, hl, ?_⟩
          intro x hx
          rcases ht with rfl | rfl <;> simp only [In, lowOf, midOf] at * <;> omega
        · have hx : In c (mxOf r o) := by
            rcases ht with rfl | rfl <;> simp only [In, lowOf, midOf, mxOf] at * <;> omega
          obtain ⟨p, hp, h1, h2⟩ := three c hx
          refine ⟨p, hp, h1, h2.trans ?_⟩
          intro x hx'
          rcases ht with rfl | rfl <;> simp only [In, lowOf, midOf, mxOf] at * <;> omega
    refine ⟨fun c hc => gen r c (.inl rfl) hc, ?_⟩
    intro t ht c hc
    rcases List.mem_cons.mp ht with rfl | ht
    · exact gen t c (.inr rfl) hc
    · obtain ⟨p, hp, h1, h2⟩ := ih1.2 t ht c hc
      obtain ⟨q, hq, h3, h4⟩ := ih2.2 p hp c h1
      exact ⟨q, by simp [hq], h3, h4.trans h2⟩

theorem InsAll.refine {rs l l'} (h : InsAll rs l l') :
    (∀ r ∈ rs, ∀ c, In c r → ∃ p ∈ l', In c p ∧ Sub p r) ∧
    (∀ o ∈ l, ∀ c, In c o → ∃ p ∈ l', In c p ∧ Sub p o) := by
  induction h with
  | nil => exact ⟨by simp, fun o ho c hc => ⟨o, ho, hc, fun _ h => h⟩⟩
  | @cons r rs l l₁ l₂ h1 _ ih =>
    refine ⟨?_, ?_⟩
    · intro t ht c hc
      rcases List.mem_cons.mp ht with rfl | ht
      · obtain ⟨p, hp, h2, h3⟩ := h1.refine.1 c hc
        obtain ⟨q, hq, h4, h5⟩ := ih.2 p hp c h2
        exact ⟨q, hq, h4, h5.trans h3⟩
      · exact ih.1 t ht c hc
    · intro o ho c hc
      obtain ⟨p, hp, h2, h3⟩ := h1.refine.2 o ho c hc
      obtain ⟨q, hq, h4, h5⟩ := ih.2 p hp c h2
      exact ⟨q, hq, h4, h5.trans h3⟩

theorem removeOverlap_ins (rs : List Match) : ∃ l, InsAll rs [] l ∧
    removeOverlap rs = .ok (l.filter fun r => !r.isEmpty) := by
  obtain ⟨l, h1, h2⟩ := addAll_ins rs []
  exact ⟨l, h2, by simp [removeOverlap, h1, bind, Except.bind, pure, Except.pure]⟩

theorem removeOverlap_ok (rs : List Match) : ∃ out, removeOverlap rs = .ok out ∧
    (∀ p ∈ out, p.lo < p.hi) ∧
    (∀ c, (∃ p ∈ out, In c p) ↔ ∃ r ∈ rs, In c r) ∧
    (∀ r ∈ rs, ∀ c, In c r → ∃ p ∈ out, In c p ∧ Sub p r) := by
  obtain ⟨l, h1, h2⟩ := removeOverlap_ins rs
  have hne : ∀ p c, In c p → (!p.isEmpty) = true := by
    intro p c h
    simp only [Match.isEmpty, Bool.not_not, decide_eq_true_eq]
    unfold In at h; omega
  refine ⟨_, h2, ?_, ?_, ?_⟩
  · intro p hp
    have := (List.mem_filter.mp hp).2
    simpa [Match.isEmpty] using this
  · intro c
    have := h1.cover c
    simp only [List.not_mem_nil, false_and, exists_false, or_false] at this
    rw [← this]
    constructor
    · rintro ⟨p, hp, h⟩; exact ⟨p, (List.mem_filter.mp hp).1, h⟩
    · rintro ⟨p, hp, h⟩; exact ⟨p, List.mem_filter.mpr ⟨hp, hne p c h⟩, h⟩
  · intro r hr c hc
    obtain ⟨p, hp, h3, h4⟩ := h1.refine.1 r hr c hc
    exact ⟨p, List.mem_filter.mpr ⟨hp, hne p c h3⟩, h3, h4⟩

end Overlap
end Verif
