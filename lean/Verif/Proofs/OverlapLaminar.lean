import Verif.Proofs.Overlap
import Mathlib.Data.List.Forall2
import Mathlib.Tactic.ByContra

/-! `remove_overlap` on laminar input (any two ranges nested or disjoint). -/

namespace Verif
namespace Overlap

/-- The ranges share a code point (numeric form). -/
def Meet (a b : Match) : Prop := max a.lo b.lo < min a.hi b.hi

theorem meet_iff {a b : Match} : Meet a b ↔ a.intersects b = true := intersects_num.symm

theorem meet_comm {a b : Match} : Meet a b ↔ Meet b a := by unfold Meet; omega

theorem not_meet_iff {a b : Match} : ¬ Meet a b ↔ Disj a b := by
  rw [meet_iff, intersects_iff]
  unfold Disj
  constructor
  · intro h c h1 h2; exact h ⟨c, h1, h2⟩
  · rintro h ⟨c, h1, h2⟩; exact h c h1 h2

/-- Inserting a range that meets nothing appends it. -/
theorem Ins.append {r l l'} (h : Ins r l l') (hr : r.lo < r.hi) (hd : ∀ p ∈ l, ¬ Meet p r) :
    l' = l ++ [r] := by
  induction h with
  | empty he => rw [isEmpty_iff] at he; omega
  | nil _ => rfl
  | skip _ _ _ ih => rw [ih hr (fun p hp => hd p (by simp [hp]))]; rfl
  | @same r l _ => exact absurd (show Meet r r by unfold Meet; omega) (hd r (by simp))
  | split hi _ _ _ => exact absurd (meet_iff.mpr hi) (hd _ (by simp))

theorem Ins.of_empty {r l l'} (h : Ins r l l') (hr : r.hi ≤ r.lo) : l' = l := by
  have hn : r.isEmpty = true := isEmpty_iff.mpr hr
  cases h with
  | empty => rfl
  | nil h => simp [hn] at h
  | skip h => simp [hn] at h
  | same h => rfl
  | split h => rw [← meet_iff] at h; unfold Meet at h; omega

/-- What happens to a list element during the insertion of `cur` (a tail of `R`). -/
def Rel (cur R b b' : Match) : Prop :=
  (b' = b ∧ (¬ Meet b cur ∨ (R.lo ≤ b.lo ∧ b.hi = R.hi))) ∨
  (Meet b cur ∧ b' = ⟨b.lo, max b.lo cur.lo⟩)

/-- What is appended. -/
def NewOk (cur R : Match) (B : List Match) (a : Match) : Prop :=
  a.lo < a.hi ∧ cur.lo ≤ a.lo ∧
  ((a.hi = R.hi ∧ R.lo ≤ a.lo) ∨ ∃ b ∈ B, Meet b cur ∧ b.lo ≤ a.lo ∧ a.hi = b.hi)

theorem forall₂_refl {α} {P : α → α → Prop} : ∀ (l : List α), (∀ a ∈ l, P a a) → List.Forall₂ P l l
  | [], _ => .nil
  | a :: l, h => .cons (h a (by simp)) (forall₂_refl l fun b hb => h b (by simp [hb]))

theorem forall₂_imp {α} {P P' : α → α → Prop} {l l' : List α} (h : List.Forall₂ P l l')
    (hp : ∀ a ∈ l, ∀ b, P a b → P' a b) : List.Forall₂ P' l l' := by
  induction h with
  | nil => exact .nil
  | cons h1 _ ih =>
    exact .cons (hp _ (by simp) _ h1) (ih fun a ha b hb => hp a (by simp [ha]) b hb)

theorem insCore {cur S S'} (h : Ins cur S S') : ∀ (R : Match) (B A : List Match), S = B ++ A →
    cur.hi = R.hi → R.lo ≤ cur.lo →
    S.Pairwise (fun a b => ¬ Meet a b) → (∀ a ∈ A, ¬ Meet a cur) →
    B.Pairwise (fun p p' => ¬ (p'.lo < p.lo ∧ Meet p cur ∧ Meet p' cur)) →
    (∀ b ∈ B, Meet b cur → ∀ c, cur.lo ≤ c → c < b.lo → ∃ b' ∈ B, In c b') →
    ∃ B' new, S' = B' ++ A ++ new ∧ List.Forall₂ (Rel cur R) B B' ∧
      (∀ a ∈ new, NewOk cur R B a) ∧ new.Pairwise (fun a a' => a.lo ≤ a'.lo) ∧
      S'.Pairwise (fun a b => ¬ Meet a b) := by
  induction h with
  | @empty r l he =>
    intro R B A hS hhi hlo hd hA hinv hcov
    rw [isEmpty_iff] at he
    refine ⟨B, [], by simp [hS], forall₂_refl B ?_, by simp, by simp, hd⟩
    intro b _
    exact .inl ⟨rfl, .inl (by unfold Meet; omega)⟩
  | @nil r hr =>
    intro R B A hS hhi hlo hd hA hinv hcov
    have : B = [] ∧ A = [] := by simpa using hS.symm
    obtain ⟨rfl, rfl⟩ := this
    have hr' : ¬ r.hi ≤ r.lo := by rw [← isEmpty_iff]; simp [hr]
    refine ⟨[], [r], rfl, .nil, ?_, by simp, by simp⟩
    intro a ha
    simp at ha; subst ha
    exact ⟨by omega, Nat.le_refl _, .inl ⟨hhi, hlo⟩⟩
  | @skip r p l l' hr hp hins ih =>
    intro R B A hS hhi hlo hd hA hinv hcov
    have hpm : ¬ Meet p r := by rw [meet_iff]; simp [hp]
    rw [List.pairwise_cons] at hd
    have hcv := fun c => hins.cover c
    have dnew : ∀ l'' , l'' = l' → ∀ q ∈ l', ¬ Meet p q := by
      intro _ _ q hq hm
      obtain ⟨c, hc1, hc2⟩ := intersects_iff.mp (meet_iff.mp hm)
      rcases (hcv c).mp ⟨q, hq, hc2⟩ with h | ⟨q', hq', h⟩
      · exact hpm (meet_iff.mpr (intersects_iff.mpr ⟨c, hc1, h⟩))
      · exact hd.1 q' hq' (meet_iff.mpr (intersects_iff.mpr ⟨c, hc1, h⟩))
    cases B with
    | nil =>
      cases A with
      | nil => simp at hS
      | cons a A =>
        simp only [List.nil_append, List.cons.injEq] at hS
        obtain ⟨rfl, rfl⟩ := hS
        obtain ⟨B', new, h1, h2, h3, h4, h5⟩ := ih R [] l rfl hhi hlo hd.2
          (fun a ha => hA a (by simp [ha])) .nil (by simp)
        cases h2
        refine ⟨[], new, by simp [h1], .nil, ?_, h4, ?_⟩
        · exact h3
        · exact List.pairwise_cons.mpr ⟨dnew _ rfl, h5⟩
    | cons b B =>
      simp only [List.cons_append, List.cons.injEq] at hS
      obtain ⟨rfl, rfl⟩ := hS
      rw [List.pairwise_cons] at hinv
      obtain ⟨B', new, h1, h2, h3, h4, h5⟩ := ih R B A rfl hhi hlo hd.2 hA hinv.2 (by
        intro b hb hm c hc1 hc2
        obtain ⟨b', hb', hin⟩ := hcov b (by simp [hb]) hm c hc1 hc2
        rcases List.mem_cons.mp hb' with rfl | hb'
        · exfalso; apply hpm; unfold Meet In at *; omega
        · exact ⟨b', hb', hin⟩)
      refine ⟨p :: B', new, by simp [h1], .cons (.inl ⟨rfl, .inl hpm⟩) h2, ?_, h4, ?_⟩
      · intro a ha
        obtain ⟨n1, n2, n3⟩ := h3 a ha
        refine ⟨n1, n2, n3.imp id ?_⟩
        rintro ⟨b, hb, h⟩
        exact ⟨b, by simp [hb], h⟩
      · exact List.pairwise_cons.mpr ⟨dnew _ rfl, h5⟩
  | @same r l hr =>
    intro R B A hS hhi hlo hd hA hinv hcov
    have hr' : ¬ r.hi ≤ r.lo := by rw [← isEmpty_iff]; simp [hr]
    cases B with
    | nil =>
      simp only [List.nil_append] at hS
      exact absurd (show Meet r r by unfold Meet; omega) (hA r (by rw [← hS]; simp))
    | cons b B =>
      simp only [List.cons_append, List.cons.injEq] at hS
      obtain ⟨rfl, rfl⟩ := hS
      have hd' := List.pairwise_cons.mp hd
      refine ⟨r :: B, [], by simp, forall₂_refl _ ?_, by simp, by simp, hd⟩
      intro b hb
      rcases List.mem_cons.mp hb with rfl | hb
      · exact .inl ⟨rfl, .inr ⟨hlo, hhi⟩⟩
      · exact .inl ⟨rfl, .inl (by rw [meet_comm]; exact hd'.1 b (by simp [hb]))⟩
  | @split r o l l₁ l₂ hint hne hmid hmx ih1 ih2 =>
    intro R B A hS hhi hlo hd hA hinv hcov
    have hmeet := meet_iff.mpr hint
    cases B with
    | nil =>
      simp only [List.nil_append] at hS
      exact absurd hmeet (hA o (by rw [← hS]; simp))
    | cons b B =>
      simp only [List.cons_append, List.cons.injEq] at hS
      obtain ⟨rfl, rfl⟩ := hS
      have hd' := List.pairwise_cons.mp hd
      have hinv' := List.pairwise_cons.mp hinv
      have ho : o.lo ≤ r.lo := by
        by_contra hlt
        obtain ⟨b', hb', hin⟩ := hcov o (by simp) hmeet r.lo (Nat.le_refl _) (by omega)
        rcases List.mem_cons.mp hb' with rfl | hb'
        · unfold In at hin; omega
        · refine hinv'.1 b' hb' ⟨?_, hmeet, ?_⟩
          · unfold In at hin; omega
          · unfold Meet In at *; omega
      have hmidne : (midOf r o).lo < (midOf r o).hi := by unfold Meet at hmeet; simp [midOf]; omega
      have hl1 : l₁ = B ++ A ++ [midOf r o] := hmid.append hmidne (by
        intro p hp hm
        refine hd'.1 p hp ?_
        unfold Meet midOf at *; simp only at *; omega)
      subst hl1
      have lowEq : lowOf r o = ⟨o.lo, max o.lo r.lo⟩ := by
        simp only [lowOf, Match.mk.injEq]; omega
      have midEq : midOf r o = ⟨r.lo, min r.hi o.hi⟩ := by
        simp only [midOf, Match.mk.injEq, and_true]; omega
      have lowD : ∀ q ∈ l₂, ¬ Meet (lowOf r o) q := by
        intro q hq hm
        obtain ⟨c, hc1, hc2⟩ := intersects_iff.mp (meet_iff.mp hm)
        rcases (hmx.cover c).mp ⟨q, hq, hc2⟩ with h | ⟨q', hq', h⟩
        · simp only [In, lowOf, mxOf] at *; unfold Meet at *; omega
        · rcases List.mem_append.mp hq' with hq' | hq'
          · refine hd'.1 q' hq' ?_
            simp only [In, lowOf] at hc1 h; unfold Meet at hmeet ⊢; omega
          · simp only [List.mem_singleton] at hq'; subst hq'
            simp only [In, lowOf, midOf] at *; omega
      have dl1 : (B ++ A ++ [midOf r o]).Pairwise (fun a b => ¬ Meet a b) := by
        rw [List.pairwise_append]
        refine ⟨hd'.2, by simp, ?_⟩
        intro a ha b hb
        simp only [List.mem_singleton] at hb; subst hb
        intro hm
        refine hd'.1 a ha ?_
        unfold Meet midOf at *; simp only at *; omega
      have restRel : ∀ b ∈ B, Meet b r → ¬ Meet o b := fun b hb _ => hd'.1 b (by simp [hb])
      by_cases hcase : r.hi ≤ o.hi
      · -- the rest belongs to `o`
        have mxEq : mxOf r o = ⟨r.hi, o.hi⟩ := by simp only [mxOf, Match.mk.injEq]; omega
        have relB : List.Forall₂ (Rel r R) (o :: B) (lowOf r o :: B) := by
          refine .cons (.inr ⟨hmeet, lowEq⟩) (forall₂_refl B ?_)
          intro b hb
          refine .inl ⟨rfl, .inl ?_⟩
          intro hm
          refine hd'.1 b (by simp [hb]) ?_
          unfold Meet at *; omega
        by_cases hmxe : r.hi = o.hi
        · have := hmx.of_empty (by rw [mxEq]; simp [hmxe])
          subst this
          refine ⟨lowOf r o :: B, [midOf r o], by simp, relB, ?_, by simp, ?_⟩
          · intro a ha
            simp only [List.mem_singleton] at ha; subst ha
            refine ⟨hmidne, by rw [midEq]; simp, .inl ⟨by rw [midEq]; simp; omega, by rw [midEq]; exact hlo⟩⟩
          · exact List.pairwise_cons.mpr ⟨lowD, dl1⟩
        · have hmxne : (mxOf r o).lo < (mxOf r o).hi := by rw [mxEq]; simp only; omega
          have hnm : ∀ p ∈ B ++ A ++ [midOf r o], ¬ Meet p (mxOf r o) := by
            intro p hp hm
            rcases List.mem_append.mp hp with hp | hp
            · refine hd'.1 p hp ?_
              rw [mxEq] at hm
              unfold Meet at *; simp only at *; omega
            · simp only [List.mem_singleton] at hp; subst hp
              rw [mxEq, midEq] at hm
              unfold Meet at *; simp only at *; omega
          have := hmx.append hmxne hnm
          subst this
          refine ⟨lowOf r o :: B, [midOf r o, mxOf r o], by simp, relB, ?_, ?_, ?_⟩
          · intro a ha
            simp only [List.mem_cons, List.not_mem_nil, or_false] at ha
            rcases ha with rfl | rfl
            · refine ⟨hmidne, by rw [midEq]; simp, .inl ⟨by rw [midEq]; simp; omega, by rw [midEq]; exact hlo⟩⟩
            · refine ⟨hmxne, by rw [mxEq]; unfold Meet at hmeet; simp only; omega, .inr ⟨o, by simp, hmeet, ?_, ?_⟩⟩
              · rw [mxEq]; unfold Meet at hmeet; simp only; omega
              · rw [mxEq]
          · rw [mxEq, midEq]
            simp
            unfold Meet at hmeet; omega
          · refine List.pairwise_cons.mpr ⟨lowD, ?_⟩
            rw [List.pairwise_append]
            refine ⟨dl1, by simp, ?_⟩
            intro a ha b hb
            simp only [List.mem_singleton] at hb; subst hb
            exact hnm a ha
      · -- the rest belongs to the new range
        have mxEq : mxOf r o = ⟨o.hi, r.hi⟩ := by simp only [mxOf, Match.mk.injEq]; omega
        obtain ⟨B', new, h1, h2, h3, h4, h5⟩ := ih2 R B (A ++ [midOf r o]) (by simp)
          (by rw [mxEq]; exact hhi) (by rw [mxEq]; unfold Meet at hmeet; simp only; omega) dl1
          (by
            intro a ha hm
            rcases List.mem_append.mp ha with ha | ha
            · refine hA a ha ?_
              rw [mxEq] at hm; unfold Meet at *; simp only at *; omega
            · simp only [List.mem_singleton] at ha; subst ha
              rw [mxEq, midEq] at hm; unfold Meet at *; simp only at *; omega)
          (hinv'.2.imp (by
            intro p p' hn hx
            refine hn ⟨hx.1, ?_, ?_⟩
            · have := hx.2.1; rw [mxEq] at this; unfold Meet at *; simp only at *; omega
            · have := hx.2.2; rw [mxEq] at this; unfold Meet at *; simp only at *; omega))
          (by
            intro b hb hm c hc1 hc2
            rw [mxEq] at hm hc1
            obtain ⟨b', hb', hin⟩ := hcov b (by simp [hb]) (by unfold Meet at *; simp only at *; omega) c
              (by unfold Meet at hmeet; simp only at hc1; omega) hc2
            rcases List.mem_cons.mp hb' with rfl | hb'
            · exfalso; unfold In at hin; simp only at hc1; omega
            · exact ⟨b', hb', hin⟩)
        refine ⟨lowOf r o :: B', midOf r o :: new, by simp [h1], ?_, ?_, ?_, ?_⟩
        · refine .cons (.inr ⟨hmeet, lowEq⟩) (forall₂_imp h2 ?_)
          intro b hb b' hr
          have hob := hd'.1 b (by simp [hb])
          have mm : Meet b r → Meet b (mxOf r o) := by
            intro hm; rw [mxEq]; unfold Meet at *; simp only at *; omega
          rcases hr with ⟨h, h' | h'⟩ | ⟨h, h'⟩
          · exact .inl ⟨h, .inl fun hm => h' (mm hm)⟩
          · exact .inl ⟨h, .inr h'⟩
          · refine .inr ⟨?_, ?_⟩
            · rw [mxEq] at h; unfold Meet at *; simp only at *; omega
            · rw [h', mxEq]
              rw [mxEq] at h
              simp only [Match.mk.injEq, true_and]
              -- the element begins where `o` ends
              have hb1 : o.hi ≤ b.lo := by unfold Meet at *; simp only at *; omega
              unfold Meet at hmeet
              omega
        · intro a ha
          rcases List.mem_cons.mp ha with rfl | ha
          · refine ⟨hmidne, by rw [midEq]; simp, .inr ⟨o, by simp, hmeet, by rw [midEq]; exact ho, by rw [midEq]; simp; omega⟩⟩
          · obtain ⟨n1, n2, n3⟩ := h3 a ha
            rw [mxEq] at n2
            refine ⟨n1, by unfold Meet at hmeet; simp only at n2; omega, n3.imp id ?_⟩
            clear n3
            rintro ⟨b, hb, hm, h⟩
            exact ⟨b, by simp [hb], by rw [mxEq] at hm; unfold Meet at *; simp only at *; omega, h⟩
        · refine List.pairwise_cons.mpr ⟨?_, h4⟩
          intro a ha
          obtain ⟨n1, n2, n3⟩ := h3 a ha
          rw [mxEq] at n2
          rw [midEq]
          unfold Meet at hmeet; simp only at *; omega
        · exact List.pairwise_cons.mpr ⟨lowD, h5⟩

/-- Nested or disjoint. -/
def Lam (a b : Match) : Prop :=
  ¬ Meet a b ∨ (a.lo ≤ b.lo ∧ b.hi ≤ a.hi) ∨ (b.lo ≤ a.lo ∧ a.hi ≤ b.hi)

/-- Order of the `BTreeSet` (numeric form). -/
def Lt (a b : Match) : Prop := a.lo < b.lo ∨ (a.lo = b.lo ∧ a.hi < b.hi)

/-- `r` may still come after `Q`. -/
def Fut (Q : List Match) (r : Match) : Prop := (∀ q ∈ Q, Lt q r) ∧ ∀ q ∈ Q, Lam q r

/-- Invariant of the insertion loop. -/
structure LInv (Q L : List Match) : Prop where
  disj : L.Pairwise (fun a b => ¬ Meet a b)
  sub : ∀ p ∈ L, p.lo < p.hi → ∃ q ∈ Q, q.lo ≤ p.lo ∧ p.hi ≤ q.hi
  cov : ∀ q ∈ Q, ∀ c, In c q → ∃ p ∈ L, In c p
  ends : ∀ p ∈ L, p.lo < p.hi → (∃ q ∈ Q, p.hi ≤ q.lo) ∨ ∃ q ∈ Q, q.lo ≤ p.lo ∧ p.hi = q.hi
  inv : ∀ r, Fut Q r → L.Pairwise (fun p p' => ¬ (p'.lo < p.lo ∧ Meet p r ∧ Meet p' r))

theorem pairwise_forall₂ {α} {T : α → α → Prop} {P P' : α → α → Prop} {l l' : List α}
    (h : List.Forall₂ T l l') (hp : l.Pairwise P)
    (hT : ∀ a a' b b', a ∈ l → b ∈ l → T a a' → T b b' → P a b → P' a' b') : l'.Pairwise P' := by
  induction h with
  | nil => exact .nil
  | @cons a a' l l' h1 h2 ih =>
    rw [List.pairwise_cons] at hp ⊢
    refine ⟨?_, ih hp.2 fun x x' y y' hx hy => hT x x' y y' (by simp [hx]) (by simp [hy])⟩
    intro b' hb'
    have : ∃ b ∈ l, T b b' := by
      clear ih hp hT
      induction h2 with
      | nil => simp at hb'
      | cons h3 _ ih =>
        rcases List.mem_cons.mp hb' with rfl | hb'
        · exact ⟨_, by simp, h3⟩
        · obtain ⟨b, hb, h⟩ := ih hb'; exact ⟨b, by simp [hb], h⟩
    obtain ⟨b, hb, h⟩ := this
    exact hT a a' b b' (by simp) (by simp [hb]) h1 h (hp.1 b hb)

theorem mem_forall₂ {α} {T : α → α → Prop} {l l' : List α} (h : List.Forall₂ T l l') {b' : α}
    (hb' : b' ∈ l') : ∃ b ∈ l, T b b' := by
  induction h with
  | nil => simp at hb'
  | cons h3 _ ih =>
    rcases List.mem_cons.mp hb' with rfl | hb'
    · exact ⟨_, by simp, h3⟩
    · obtain ⟨b, hb, h⟩ := ih hb'; exact ⟨b, by simp [hb], h⟩

theorem LInv.step {Q L L' : List Match} {R : Match} (h : LInv Q L) (hf : Fut Q R) (hi : Ins R L L') :
    LInv (Q ++ [R]) L' := by
  by_cases hR : R.hi ≤ R.lo
  · have := hi.of_empty hR
    subst this
    refine ⟨h.disj, ?_, ?_, ?_, ?_⟩
    · intro p hp hne
      obtain ⟨q, hq, h'⟩ := h.sub p hp hne
      exact ⟨q, by simp [hq], h'⟩
    · intro q hq c hc
      rcases List.mem_append.mp hq with hq | hq
      · exact h.cov q hq c hc
      · simp only [List.mem_singleton] at hq; subst hq; unfold In at hc; omega
    · intro p hp hne
      rcases h.ends p hp hne with ⟨q, hq, h'⟩ | ⟨q, hq, h'⟩
      · exact .inl ⟨q, by simp [hq], h'⟩
      · exact .inr ⟨q, by simp [hq], h'⟩
    · intro r hr
      exact h.inv r ⟨fun q hq => hr.1 q (by simp [hq]), fun q hq => hr.2 q (by simp [hq])⟩
  -- contiguity: points of R left of a piece meeting R are covered
  have covR : ∀ b ∈ L, b.lo < b.hi → R.lo < b.lo → ∀ c, R.lo ≤ c → c < b.lo → ∃ b' ∈ L, In c b' := by
    intro b hb hne hlt c hc1 hc2
    obtain ⟨q, hq, h1, h2⟩ := h.sub b hb hne
    have := hf.1 q hq
    exact h.cov q hq c (by unfold In Lt at *; omega)
  obtain ⟨B', new, hL', hrel, hnew, hsort, hdisj⟩ := insCore hi R L [] (by simp) rfl (Nat.le_refl _)
    h.disj (by simp) (h.inv R hf) (by
      intro b hb hm c hc1 hc2
      exact covR b hb (by unfold Meet at hm; omega) (by omega) c hc1 hc2)
  simp only [List.append_nil] at hL'
  -- a piece meeting R ends at some range of Q
  have endQ : ∀ b ∈ L, Meet b R → ∃ q ∈ Q, q.lo ≤ b.lo ∧ b.hi = q.hi := by
    intro b hb hm
    rcases h.ends b hb (by unfold Meet at hm; omega) with ⟨q, hq, h'⟩ | h'
    · exfalso
      have := hf.1 q hq
      unfold Meet Lt at *; omega
    · exact h'
  subst hL'
  have hsub : ∀ p ∈ B' ++ new, p.lo < p.hi →
      ∃ q ∈ Q ++ [R], q.lo ≤ p.lo ∧ p.hi ≤ q.hi := by
    intro p hp hne
    rcases List.mem_append.mp hp with hp | hp
    · obtain ⟨b, hb, hr⟩ := mem_forall₂ hrel hp
      rcases hr with ⟨rfl, _⟩ | ⟨hm, rfl⟩
      · obtain ⟨q, hq, h'⟩ := h.sub p hb hne
        exact ⟨q, by simp [hq], h'⟩
      · obtain ⟨q, hq, h'⟩ := h.sub b hb (by unfold Meet at hm; omega)
        refine ⟨q, by simp [hq], ?_⟩
        unfold Meet at hm; simp only at *; omega
    · obtain ⟨n1, n2, n3 | ⟨b, hb, hm, n3⟩⟩ := hnew p hp
      · exact ⟨R, by simp, by omega, by omega⟩
      · obtain ⟨q, hq, h'⟩ := h.sub b hb (by unfold Meet at hm; omega)
        exact ⟨q, by simp [hq], by omega, by omega⟩
  have hends : ∀ p ∈ B' ++ new, p.lo < p.hi →
      (∃ q ∈ Q ++ [R], p.hi ≤ q.lo) ∨ ∃ q ∈ Q ++ [R], q.lo ≤ p.lo ∧ p.hi = q.hi := by
    intro p hp hne
    rcases List.mem_append.mp hp with hp | hp
    · obtain ⟨b, hb, hr⟩ := mem_forall₂ hrel hp
      rcases hr with ⟨rfl, _⟩ | ⟨hm, rfl⟩
      · rcases h.ends p hb hne with ⟨q, hq, h'⟩ | ⟨q, hq, h'⟩
        · exact .inl ⟨q, by simp [hq], h'⟩
        · exact .inr ⟨q, by simp [hq], h'⟩
      · left
        refine ⟨R, by simp, ?_⟩
        simp only at *; omega
    · obtain ⟨n1, n2, n3 | ⟨b, hb, hm, n3⟩⟩ := hnew p hp
      · exact .inr ⟨R, by simp, n3.2, n3.1⟩
      · obtain ⟨q, hq, h'⟩ := endQ b hb hm
        exact .inr ⟨q, by simp [hq], by omega, by omega⟩
  refine ⟨hdisj, hsub, ?_, hends, ?_⟩
  · intro q hq c hc
    rw [hi.cover c]
    rcases List.mem_append.mp hq with hq | hq
    · exact .inr (h.cov q hq c hc)
    · simp only [List.mem_singleton] at hq; subst hq; exact .inl hc
  · intro r hr
    have hrQ : Fut Q r := ⟨fun q hq => hr.1 q (by simp [hq]), fun q hq => hr.2 q (by simp [hq])⟩
    have hRr := hr.1 R (by simp)
    have hdB := (List.pairwise_append.mp hdisj).2.2
    rw [List.pairwise_append]
    refine ⟨?_, ?_, ?_⟩
    · -- old pairs
      refine pairwise_forall₂ hrel (h.inv r hrQ) ?_
      intro a a' b b' _ _ ha hb hn hx
      apply hn
      have lo_eq : ∀ a a', Rel R R a a' → a'.lo = a.lo ∧ (Meet a' r → Meet a r) := by
        intro a a' ha
        rcases ha with ⟨rfl, _⟩ | ⟨hm, rfl⟩
        · exact ⟨rfl, id⟩
        · refine ⟨rfl, ?_⟩
          intro hm'; unfold Meet at *; simp only at *; omega
      obtain ⟨l1, m1⟩ := lo_eq a a' ha
      obtain ⟨l2, m2⟩ := lo_eq b b' hb
      exact ⟨by omega, m1 hx.2.1, m2 hx.2.2⟩
    · -- appended pairs
      refine hsort.imp ?_
      intro a b hab hx
      omega
    · -- old before appended
      intro p hp p' hp' hx
      obtain ⟨hlt, hm, hm'⟩ := hx
      obtain ⟨n1, n2, n3⟩ := hnew p' hp'
      have hpp := hdB p hp p' hp'
      -- p' ends at a range, which must be an initial part of r
      have hq : ∃ q ∈ Q ++ [R], q.lo ≤ p'.lo ∧ p'.hi = q.hi := by
        rcases n3 with n3 | ⟨b, hb, hbm, n3⟩
        · exact ⟨R, by simp, n3.2, n3.1⟩
        · obtain ⟨q, hq, h'⟩ := endQ b hb hbm
          exact ⟨q, by simp [hq], by omega, by omega⟩
      obtain ⟨q, hq, hq1, hq2⟩ := hq
      clear n3
      have hqr := hr.2 q hq
      have hqR : q.lo ≤ R.lo := by
        rcases List.mem_append.mp hq with hq | hq
        · have := hf.1 q hq; unfold Lt at this; omega
        · simp only [List.mem_singleton] at hq; subst hq; omega
      have hrlo : r.lo = R.lo := by
        unfold Lam Meet Lt at *; omega
      have hrhi : R.hi < r.hi := by unfold Lt at hRr; omega
      -- a range of Q through R ending at a piece that meets R contains r
      have big : ∀ b ∈ L, Meet b R → R.hi ≤ b.hi → r.hi ≤ b.hi := by
        intro b hb hbm hbe
        obtain ⟨q2, hq2m, hq2a, hq2b⟩ := endQ b hb hbm
        have h1 := hf.1 q2 hq2m
        have h2 := hrQ.2 q2 hq2m
        unfold Lam Meet Lt at *; omega
      obtain ⟨b, hb, hrb⟩ := mem_forall₂ hrel hp
      rcases hrb with ⟨rfl, hno | ⟨hs1, hs2⟩⟩ | ⟨hbm, rfl⟩
      · -- untouched piece right of R
        have hge : R.hi ≤ p.lo := by unfold Meet at *; omega
        obtain ⟨q1, hq1m, hq1a, hq1b⟩ := h.sub p hb (by unfold Meet at hm; omega)
        have h1 := hf.1 q1 hq1m
        obtain ⟨o, ho, hoin⟩ := h.cov q1 hq1m (R.hi - 1) (by unfold In Lt Meet at *; omega)
        have hom : Meet o R := by unfold Meet In at *; omega
        have := big o ho hom (by unfold In at hoin; omega)
        -- o and p are disjoint
        have hop : ¬ Meet o p := by
          have hne : o ≠ p := by rintro rfl; exact hno hom
          have hP := h.disj
          intro hmm
          exact absurd hmm (by
            have hsym : ∀ x y : Match, ¬ Meet x y → ¬ Meet y x := fun x y hxy hyx => hxy (meet_comm.mp hyx)
            obtain ⟨i, hi', rfl⟩ := List.mem_iff_getElem.mp ho
            obtain ⟨j, hj', rfl⟩ := List.mem_iff_getElem.mp hb
            rcases Nat.lt_trichotomy i j with hij | hij | hij
            · exact (List.pairwise_iff_getElem.mp hP) i j hi' hj' hij
            · subst hij; exact absurd rfl hne
            · exact hsym _ _ ((List.pairwise_iff_getElem.mp hP) j i hj' hi' hij))
        unfold Meet In at *; omega
      · -- piece equal to the rest of R
        by_cases hpm : Meet p R
        · have := big p hb hpm (by omega)
          omega
        · unfold Meet at *; omega
      · -- shrunk piece: ends at R.lo
        simp only at hlt
        unfold Meet at *; simp only at *; omega

theorem LInv.all {rs L L' : List Match} (hi : InsAll rs L L') : ∀ Q, LInv Q L →
    (∀ r ∈ rs, Fut Q r) → rs.Pairwise (fun a b => Lt a b ∧ Lam a b) → LInv (Q ++ rs) L' := by
  induction hi with
  | nil => intro Q h _ _; simpa using h
  | @cons r rs l l₁ l₂ h1 _ ih =>
    intro Q h hf hp
    rw [List.pairwise_cons] at hp
    have := ih (Q ++ [r]) (h.step (hf r (by simp)) h1) (by
      intro x hx
      have hfx := hf x (by simp [hx])
      refine ⟨?_, ?_⟩
      · intro q hq
        rcases List.mem_append.mp hq with hq | hq
        · exact hfx.1 q hq
        · simp only [List.mem_singleton] at hq; subst hq; exact (hp.1 x hx).1
      · intro q hq
        rcases List.mem_append.mp hq with hq | hq
        · exact hfx.2 q hq
        · simp only [List.mem_singleton] at hq; subst hq; exact (hp.1 x hx).2) hp.2
    simpa using this

theorem blt_lt {a b : Match} : blt a b = true ↔ Lt a b := by
  rw [blt_iff_match]; unfold Lt; omega

theorem removeOverlap_laminar {rs : List Match} (hs : Sorted rs)
    (hl : ∀ a ∈ rs, ∀ b ∈ rs, Lam a b) :
    ∃ out, removeOverlap rs = .ok out ∧ out.Pairwise Disj := by
  obtain ⟨l, h1, h2⟩ := removeOverlap_ins rs
  refine ⟨_, h2, ?_⟩
  have h0 : LInv [] ([] : List Match) :=
    ⟨.nil, by simp, by simp, by simp, fun _ _ => .nil⟩
  have := LInv.all h1 [] h0 (by intro r _; exact ⟨by simp, by simp⟩) (by
    have hs' : rs.Pairwise (fun a b => blt a b = true) := hs
    rw [List.pairwise_iff_getElem] at hs' ⊢
    intro i j hi hj hij
    exact ⟨blt_lt.mp (hs' i j hi hj hij), hl _ (List.getElem_mem hi) _ (List.getElem_mem hj)⟩)
  refine (this.disj.filter _).imp ?_
  intro a b hab
  exact not_meet_iff.mp hab

end Overlap
end Verif
