import Verif.Spec.Idle
import Verif.Proofs.RenameText

/-! # Rules that nothing leads to change no states -/

namespace Verif.Spec
open Verif

/-- `g'` is `g` with more productions and tokens, and no production more for what occurs in `g`. -/
structure Emb (σ θ : Nat ≃ Nat) (g g' : Grammar) : Prop where
  prod : ∀ i p, g.prods[i]? = some p → ∃ p', g'.prods[σ i]? = some p' ∧ p'.name = p.name ∧ p'.inputs = p.inputs
  back : ∀ i p', g'.prods[σ i]? = some p' → Sym.nonTerm p'.name ∈ g.tokens → ∃ p, g.prods[i]? = some p
  tok : ∀ k t, g.tokens[k]? = some t → g'.tokens[θ k]? = some t
  tokBack : ∀ k t, g'.tokens[θ k]? = some t → t ∈ g.tokens → g.tokens[k]? = some t
  prod0 : σ 0 = 0
  tok0 : θ 0 = 0
  first : (∃ p, g.prods[0]? = some p) ∧ ∃ t, g.tokens[0]? = some t
  closed : ∀ p ∈ g.prods, ∀ x ∈ p.inputs, x ∈ g.tokens

/-- The items and lookaheads of `I` exist in `g`. -/
def InG (g : Grammar) (I : Item → Nat → Prop) : Prop :=
  ∀ it la, I it la → (∃ p, g.prods[it.1]? = some p) ∧ ∃ t, g.tokens[la]? = some t

theorem InG.clo {g : Grammar} {I : Item → Nat → Prop} (h : InG g I) : InG g (Clo g I) := by
  intro it la hc
  induction hc with
  | base hi => exact h _ _ hi
  | step _ ha _ =>
    obtain ⟨p, B, p', t, tb, h1, h2, h3, h4, h5, h6, h7⟩ := ha
    exact ⟨⟨p', h3⟩, tb, h7⟩

theorem InG.adv {g : Grammar} {I : Item → Nat → Prop} (h : InG g I) (X : Sym) : InG g (Advanced g I X) := by
  rintro it la ⟨d, p, h1, h2, h3, h4⟩
  exact ⟨⟨p, h3⟩, (h _ _ h2).2⟩

namespace Emb
open Iso (tr tr_apply tr_symm tr_symm' tr_eq)
variable {σ θ : Nat ≃ Nat} {g g' : Grammar}

theorem inG_init (h : Emb σ θ g g') : InG g fun it la => it = (0, 0) ∧ la = 0 := by
  rintro it la ⟨rfl, rfl⟩
  exact h.first

theorem inG_reach (h : Emb σ θ g g') {I : Item → Nat → Prop} (hr : Reach g I) : InG g I := by
  induction hr with
  | init => exact h.inG_init.clo
  | goto _ _ ih => exact (ih.adv _).clo

theorem inG_lalr (h : Emb σ θ g g') (I : Item → Nat → Prop) : InG g (LalrOf g I) := by
  rintro it la ⟨J, h1, h2, h3⟩
  exact h.inG_reach h1 _ _ h3

theorem rule (h : Emb σ θ g g') {A : Str} {r : List Sym} (hr : Rule g.prods A r) : Rule g'.prods A r := by
  obtain ⟨p, hp, rfl, rfl⟩ := hr
  obtain ⟨i, hi⟩ := List.getElem?_of_mem hp
  obtain ⟨p', h1, h2, h3⟩ := h.prod i p hi
  exact ⟨p', List.mem_of_getElem? h1, h2, h3⟩

/-- A production of `g'` for something that occurs in `g`. -/
theorem at_back (h : Emb σ θ g g') {i : Nat} {p' : Production} (hp : g'.prods[i]? = some p')
    (hA : Sym.nonTerm p'.name ∈ g.tokens) : ∃ p, g.prods[σ.symm i]? = some p ∧ p.name = p'.name ∧ p.inputs = p'.inputs := by
  obtain ⟨p, h1⟩ := h.back (σ.symm i) p' (by rwa [Equiv.apply_symm_apply]) hA
  obtain ⟨p'', h2, h3, h4⟩ := h.prod _ _ h1
  rw [Equiv.apply_symm_apply, hp] at h2
  cases h2
  exact ⟨p, h1, h3.symm, h4.symm⟩

theorem rule_back (h : Emb σ θ g g') {A : Str} {r : List Sym} (hr : Rule g'.prods A r) (hA : Sym.nonTerm A ∈ g.tokens) :
    Rule g.prods A r := by
  obtain ⟨p', hp, rfl, rfl⟩ := hr
  obtain ⟨i, hi⟩ := List.getElem?_of_mem hp
  obtain ⟨p, h1, h2, h3⟩ := h.at_back hi hA
  exact ⟨p, List.mem_of_getElem? h1, h2, h3⟩

theorem steps (h : Emb σ θ g g') {α β : List Sym} (hs : Steps (Rule g.prods) α β) : Steps (Rule g'.prods) α β := by
  induction hs with
  | refl => exact .refl
  | tail _ hst ih =>
    cases hst with
    | mk hr => exact .tail ih (.mk (h.rule hr))

theorem steps_back (h : Emb σ θ g g') {α β : List Sym} (hs : Steps (Rule g'.prods) α β) (hα : ∀ x ∈ α, x ∈ g.tokens) :
    Steps (Rule g.prods) α β ∧ ∀ x ∈ β, x ∈ g.tokens := by
  induction hs with
  | refl => exact ⟨.refl, hα⟩
  | tail _ hst ih =>
    obtain ⟨h1, h2⟩ := ih
    cases hst with
    | @mk l r A rhs hr =>
      have hr' := h.rule_back hr (h2 _ (by simp))
      refine ⟨.tail h1 (.mk hr'), fun x hx => ?_⟩
      obtain ⟨p, hp, _, rfl⟩ := hr'
      simp only [List.mem_append] at hx
      rcases hx with (hx | hx) | hx
      · exact h2 x (by simp [hx])
      · exact h.closed p hp x hx
      · exact h2 x (by simp [hx])

theorem asks (h : Emb σ θ g g') {it : Item} {la q b : Nat} (ha : Asks g it la q b) : Asks g' (σ it.1, it.2) (θ la) (σ q) (θ b) := by
  obtain ⟨p, B, p', t, tb, h1, h2, h3, h4, h5, ⟨h6, β, h6'⟩, h7⟩ := ha
  obtain ⟨r, k1, k2, k3⟩ := h.prod _ _ h1
  obtain ⟨r', l1, l2, l3⟩ := h.prod _ _ h3
  refine ⟨r, B, r', t, tb, k1, by rw [k3]; exact h2, l1, by rw [l2, h4], h.tok _ _ h5, ⟨h6, β, ?_⟩, h.tok _ _ h7⟩
  rw [k3]; exact h.steps h6'

theorem asks_back (h : Emb σ θ g g') {it : Item} {la q b : Nat} (hi : ∃ p, g.prods[it.1]? = some p) (hl : ∃ t, g.tokens[la]? = some t)
    (ha : Asks g' (σ it.1, it.2) (θ la) q b) : Asks g it la (σ.symm q) (θ.symm b) := by
  obtain ⟨p, hp⟩ := hi
  obtain ⟨t, ht⟩ := hl
  obtain ⟨p2, B, p', t2, tb, h1, h2, h3, rfl, h5, ⟨h6, β, h6'⟩, h7⟩ := ha
  obtain ⟨r, k1, k2, k3⟩ := h.prod _ _ hp
  simp only [k1, Option.some.injEq] at h1
  subst h1
  simp only [h.tok _ _ ht, Option.some.injEq] at h5
  subst h5
  rw [k3] at h2 h6'
  have hc := h.closed p (List.mem_of_getElem? hp)
  obtain ⟨q', l1, l2, l3⟩ := h.at_back h3 (hc _ (List.mem_of_getElem? h2))
  obtain ⟨m1, m2⟩ := h.steps_back h6' (by
    intro x hx
    rcases List.mem_append.1 hx with hx | hx
    · exact hc x (List.mem_of_mem_drop hx)
    · rw [List.mem_singleton] at hx
      exact hx ▸ List.mem_of_getElem? ht)
  exact ⟨p, p'.name, q', t, tb, hp, h2, l1, l2, ht, ⟨h6, β, m1⟩,
    h.tokBack _ _ (by rwa [Equiv.apply_symm_apply]) (m2 tb (by simp))⟩

theorem clo (h : Emb σ θ g g') {I : Item → Nat → Prop} (hI : InG g I) : Clo g' (tr σ θ I) = tr σ θ (Clo g I) := by
  refine tr_eq (fun i d la hc => ?_) fun i d la hc => ?_
  · have : ∀ it la, Clo g I it la → Clo g' (tr σ θ I) (σ it.1, it.2) (θ la) := fun it la hc => by
      induction hc with
      | base hi => exact .base (by simpa using hi)
      | step _ ha ih => exact .step ih (h.asks ha)
    exact this _ _ hc
  · have : ∀ it la, Clo g' (tr σ θ I) it la → Clo g I (σ.symm it.1, it.2) (θ.symm la) := fun it la hc => by
      induction hc with
      | base hi => exact .base hi
      | @step it la q b _ ha ih =>
        obtain ⟨k1, k2⟩ := hI.clo _ _ ih
        exact .step ih (h.asks_back k1 k2 (by simpa using ha))
    exact this _ _ hc

theorem adv (h : Emb σ θ g g') {I : Item → Nat → Prop} (hI : InG g I) (X : Sym) :
    Advanced g' (tr σ θ I) X = tr σ θ (Advanced g I X) := by
  refine tr_eq (fun i d la => ?_) fun i d la => ?_
  · rintro ⟨e, p, h1, h2, h3, h4⟩
    obtain ⟨r, k1, k2, k3⟩ := h.prod _ _ h3
    exact ⟨e, r, h1, by simpa using h2, k1, by rw [k3]; exact h4⟩
  · rintro ⟨e, p', h1, h2, h3, h4⟩
    have h2' : I (σ.symm i, e) (θ.symm la) := h2
    obtain ⟨⟨p, hp⟩, _⟩ := hI _ _ h2'
    obtain ⟨r, k1, k2, k3⟩ := h.prod _ _ hp
    simp only [Equiv.apply_symm_apply] at k1
    simp only [k1, Option.some.injEq] at h3
    subst h3
    exact ⟨e, p, h1, h2', hp, by rw [← k3]; exact h4⟩

theorem init (h : Emb σ θ g g') :
    (fun (it : Item) (la : Nat) => it = (0, 0) ∧ la = 0) = tr σ θ fun it la => it = (0, 0) ∧ la = 0 := by
  have e1 : σ.symm 0 = 0 := by rw [Equiv.symm_apply_eq, h.prod0]
  have e2 : θ.symm 0 = 0 := by rw [Equiv.symm_apply_eq, h.tok0]
  refine tr_eq (fun i d la => ?_) fun i d la => ?_
  · simp only [Prod.mk.injEq, and_imp]
    rintro rfl rfl rfl
    exact ⟨⟨h.prod0, rfl⟩, h.tok0⟩
  · simp only [Prod.mk.injEq, and_imp]
    rintro rfl rfl rfl
    exact ⟨⟨e1, rfl⟩, e2⟩

theorem tr_inj {I J : Item → Nat → Prop} (h : tr σ θ I = tr σ θ J) : I = J := by
  rw [← tr_symm (σ := σ) (θ := θ) I, h, tr_symm]

theorem reach (h : Emb σ θ g g') {I : Item → Nat → Prop} (hr : Reach g I) : Reach g' (tr σ θ I) := by
  induction hr with
  | init => rw [← h.clo h.inG_init, ← h.init]; exact .init
  | @goto I X hr hn ih =>
    have hI := h.inG_reach hr
    rw [← h.clo (hI.adv X), ← h.adv hI]
    refine .goto ih ?_
    obtain ⟨it, la, ha⟩ := hn
    exact ⟨(σ it.1, it.2), θ la, by rw [h.adv hI]; simpa using ha⟩

theorem reach_back (h : Emb σ θ g g') {J : Item → Nat → Prop} (hr : Reach g' J) : ∃ I, Reach g I ∧ J = tr σ θ I := by
  induction hr with
  | init => exact ⟨_, .init, by rw [← h.clo h.inG_init, ← h.init]⟩
  | @goto J X _ hn ih =>
    obtain ⟨I, h1, rfl⟩ := ih
    have hI := h.inG_reach h1
    refine ⟨Clo g (Advanced g I X), .goto h1 ?_, by rw [h.adv hI, h.clo (hI.adv X)]⟩
    obtain ⟨it, la, ha⟩ := hn
    rw [h.adv hI] at ha
    exact ⟨_, _, ha⟩

theorem reach_iff (h : Emb σ θ g g') {I : Item → Nat → Prop} : Reach g' (tr σ θ I) ↔ Reach g I :=
  ⟨fun hr => by obtain ⟨J, h1, h2⟩ := h.reach_back hr; exact tr_inj h2 ▸ h1, h.reach⟩

theorem sameCore {I J : Item → Nat → Prop} : SameCore (tr σ θ I) (tr σ θ J) ↔ SameCore I J :=
  ⟨fun hs => by have := Iso.sameCore (σ := σ.symm) (θ := θ.symm) hs; rwa [tr_symm, tr_symm] at this, Iso.sameCore⟩

theorem lalr (h : Emb σ θ g g') (I : Item → Nat → Prop) : LalrOf g' (tr σ θ I) = tr σ θ (LalrOf g I) := by
  refine tr_eq (fun i d la => ?_) fun i d la => ?_
  · rintro ⟨J, h1, h2, h3⟩
    exact ⟨tr σ θ J, h.reach h1, sameCore.2 h2, by simpa using h3⟩
  · rintro ⟨J, h1, h2, h3⟩
    obtain ⟨J, k1, rfl⟩ := h.reach_back h1
    exact ⟨J, k1, sameCore.1 h2, h3⟩

theorem kept (h : Emb σ θ g g') (I : Item → Nat → Prop) (X : Sym) : Kept g' (tr σ θ I) X ↔ Kept g I X := by
  unfold Kept
  have hI := h.inG_lalr I
  rw [h.lalr, h.adv hI, h.clo (hI.adv X), h.reach_iff]
  refine or_congr Iff.rfl ⟨?_, ?_⟩
  · rintro ⟨J, h1, h2⟩
    obtain ⟨J, k1, rfl⟩ := h.reach_back h1
    rw [h.lalr] at h2
    exact ⟨J, k1, tr_inj h2⟩
  · rintro ⟨J, h1, h2⟩
    exact ⟨tr σ θ J, h.reach h1, by rw [h.lalr, h2]⟩

theorem claims (h : Emb σ θ g g') {I : Item → Nat → Prop} {it : Item} {k : Nat} (hc : Claims g I it k) :
    Claims g' (tr σ θ I) (σ it.1, it.2) (θ k) := by
  obtain ⟨p, hp, hc⟩ := hc
  obtain ⟨r, k1, k2, k3⟩ := h.prod _ _ hp
  refine ⟨r, k1, ?_⟩
  rw [h.lalr]
  rcases hc with ⟨h1, h2⟩ | ⟨la, t, h1, h2, h3, h4, h5⟩
  · exact .inl ⟨by simpa using h1, by rw [k3]; exact h2⟩
  · exact .inr ⟨θ la, t, by simpa using h1, by rw [k3]; exact h2, h3, h.tok _ _ h4, (h.kept I t).2 h5⟩

theorem claims_back (h : Emb σ θ g g') {I : Item → Nat → Prop} {it : Item} {k : Nat} (hc : Claims g' (tr σ θ I) it k) :
    Claims g I (σ.symm it.1, it.2) (θ.symm k) := by
  obtain ⟨p', hp, hc⟩ := hc
  rw [h.lalr] at hc
  have hin : ∃ la, LalrOf g I (σ.symm it.1, it.2) la := by
    rcases hc with ⟨h1, _⟩ | ⟨la, t, h1, _⟩
    · exact ⟨_, h1⟩
    · exact ⟨_, h1⟩
  obtain ⟨_, hin⟩ := hin
  obtain ⟨⟨p, h0⟩, _⟩ := h.inG_lalr I _ _ hin
  obtain ⟨r, k1, k2, k3⟩ := h.prod _ _ h0
  simp only [Equiv.apply_symm_apply] at k1
  rw [hp, Option.some.injEq] at k1
  subst k1
  refine ⟨p, h0, ?_⟩
  rcases hc with ⟨h1, h2⟩ | ⟨la, t, h1, h2, h3, h4, h5⟩
  · exact .inl ⟨h1, by rw [← k3]; exact h2⟩
  · rw [k3] at h2
    exact .inr ⟨θ.symm la, t, h1, h2, h3, h.tokBack _ _ (by rwa [Equiv.apply_symm_apply])
      (h.closed p (List.mem_of_getElem? h0) t (List.mem_of_getElem? h2)), (h.kept I t).1 h5⟩

theorem clash (h : Emb σ θ g g') : Clash g' ↔ Clash g := by
  constructor
  · rintro ⟨J, it, it', k, h1, h2, h3, h4⟩
    obtain ⟨I, k1, rfl⟩ := h.reach_back h1
    refine ⟨I, _, _, _, k1, fun e => h2 ?_, h.claims_back h3, h.claims_back h4⟩
    simp only [Prod.mk.injEq, EmbeddingLike.apply_eq_iff_eq] at e
    exact Prod.ext e.1 e.2
  · rintro ⟨I, it, it', k, h1, h2, h3, h4⟩
    refine ⟨tr σ θ I, _, _, θ k, h.reach h1, fun e => h2 ?_, h.claims h3, h.claims h4⟩
    simp only [Prod.mk.injEq, EmbeddingLike.apply_eq_iff_eq] at e
    exact Prod.ext e.1 e.2

/-- The forest with other numbers of productions. -/
def renum (σ : Nat → Nat) : Forest → Forest
  | .nil => .nil
  | .leaf t f => .leaf t (renum σ f)
  | .node p kids f => .node (σ p) (renum σ kids) (renum σ f)

theorem renum_symm (σ : Nat ≃ Nat) : ∀ f : Forest, renum σ (renum σ.symm f) = f
  | .nil => rfl
  | .leaf t f => by simp [renum, renum_symm σ f]
  | .node p kids f => by simp [renum, renum_symm σ f, renum_symm σ kids]

theorem post_renum (σ : Nat → Nat) : ∀ f : Forest, (renum σ f).post = f.post.map σ
  | .nil => rfl
  | .leaf t f => by simp [renum, Forest.post, post_renum σ f]
  | .node p kids f => by simp [renum, Forest.post, post_renum σ f, post_renum σ kids]

theorem yield_renum (σ : Nat → Nat) : ∀ f : Forest, (renum σ f).yield = f.yield
  | .nil => rfl
  | .leaf t f => by simp [renum, Forest.yield, yield_renum σ f]
  | .node p kids f => by simp [renum, Forest.yield, yield_renum σ f, yield_renum σ kids]

theorem valid (h : Emb σ θ g g') : ∀ f : Forest, f.Valid g.prods →
    (renum σ f).Valid g'.prods ∧ (renum σ f).roots g'.prods = f.roots g.prods
  | .nil, _ => ⟨trivial, rfl⟩
  | .leaf t f, hv => by
    obtain ⟨h1, h2⟩ := valid h f hv.2
    exact ⟨⟨hv.1, h1⟩, by simp [renum, Forest.roots, h2]⟩
  | .node p kids f, hv => by
    obtain ⟨⟨prod, hp, hi⟩, hk, hf⟩ := hv
    obtain ⟨k1, k2⟩ := valid h kids hk
    obtain ⟨f1, f2⟩ := valid h f hf
    obtain ⟨p', l1, l2, l3⟩ := h.prod _ _ hp
    refine ⟨⟨⟨p', l1, by rw [l3, hi, k2]⟩, k1, f1⟩, ?_⟩
    simp [renum, Forest.roots, f2, l1, hp, l2]

theorem valid_back (h : Emb σ θ g g') : ∀ f : Forest, f.Valid g'.prods → (∀ x ∈ f.roots g'.prods, x ∈ g.tokens) →
    (renum σ.symm f).Valid g.prods ∧ (renum σ.symm f).roots g.prods = f.roots g'.prods
  | .nil, _, _ => ⟨trivial, rfl⟩
  | .leaf t f, hv, hr => by
    obtain ⟨h1, h2⟩ := valid_back h f hv.2 fun x hx => hr x (by simp [Forest.roots, hx])
    exact ⟨⟨hv.1, h1⟩, by simp [renum, Forest.roots, h2]⟩
  | .node p kids f, hv, hr => by
    obtain ⟨⟨prod, hp, hi⟩, hk, hf⟩ := hv
    have hn : Sym.nonTerm prod.name ∈ g.tokens := hr _ (by simp [Forest.roots, hp])
    obtain ⟨q, l1, l2, l3⟩ := h.at_back hp hn
    obtain ⟨k1, k2⟩ := valid_back h kids hk fun x hx => h.closed q (List.mem_of_getElem? l1) x (by rw [l3, hi]; exact hx)
    obtain ⟨f1, f2⟩ := valid_back h f hf fun x hx => hr x (by simp [Forest.roots, hx])
    refine ⟨⟨⟨q, l1, by rw [l3, hi, k2]⟩, k1, f1⟩, ?_⟩
    simp [renum, Forest.roots, f2, l1, hp, l2]

theorem keptAlong (h : Emb σ θ g g') : ∀ (f : Forest) (I : Item → Nat → Prop), InG g I → f.Valid g.prods →
    (KeptAlong g' (tr σ θ I) (renum σ f) ↔ KeptAlong g I f)
  | .nil, _, _, _ => Iff.rfl
  | .leaf t f, I, hI, hv => by
    have := keptAlong h f _ (hI.adv t).clo hv.2
    rw [← h.clo (hI.adv t), ← h.adv hI] at this
    exact and_congr (h.kept I t) this
  | .node p kids f, I, hI, hv => by
    obtain ⟨⟨prod, hp, hi⟩, hk, hf⟩ := hv
    obtain ⟨p', l1, l2, l3⟩ := h.prod _ _ hp
    have := keptAlong h f _ (hI.adv (.nonTerm prod.name)).clo hf
    rw [← h.clo (hI.adv _), ← h.adv hI] at this
    refine and_congr (keptAlong h kids I hI hk) ⟨?_, ?_⟩
    · rintro ⟨q, k1, k2, k3⟩
      rw [l1] at k1; cases k1
      rw [l2] at k2 k3
      exact ⟨prod, hp, (h.kept I _).1 k2, this.1 k3⟩
    · rintro ⟨q, k1, k2, k3⟩
      rw [hp] at k1; cases k1
      exact ⟨p', l1, by rw [l2]; exact (h.kept I _).2 k2, by rw [l2]; exact this.2 k3⟩

theorem keptTree (h : Emb σ θ g g') {f : Forest} (hv : f.Valid g.prods) : KeptTree g' (renum σ f) ↔ KeptTree g f := by
  unfold KeptTree
  have := h.keptAlong f _ h.inG_init.clo hv
  rwa [← h.clo h.inG_init, ← h.init] at this

theorem trees (h : Emb σ θ g g') {S : Str} (hS : Sym.nonTerm S ∈ g.tokens) (ws : List Sym) (out : List Nat) :
    (∃ f, IsTree g.prods S f ws ∧ KeptTree g f ∧ f.post = out) ↔
      ∃ f, IsTree g'.prods S f ws ∧ KeptTree g' f ∧ f.post = out.map σ := by
  constructor
  · rintro ⟨f, ⟨h1, h2, h3⟩, h4, rfl⟩
    obtain ⟨k1, k2⟩ := h.valid f h1
    exact ⟨renum σ f, ⟨k1, by rw [k2, h2], by rw [yield_renum, h3]⟩, (h.keptTree h1).2 h4, post_renum _ f⟩
  · rintro ⟨f, ⟨h1, h2, h3⟩, h4, h5⟩
    obtain ⟨k1, k2⟩ := h.valid_back f h1 (by rw [h2]; simpa using hS)
    refine ⟨renum σ.symm f, ⟨k1, by rw [k2, h2], by rw [yield_renum, h3]⟩, (h.keptTree k1).1 (by rwa [renum_symm]), ?_⟩
    rw [post_renum, h5, List.map_map]
    conv => rhs; rw [← List.map_id out]
    congr 1; funext x; simp

end Emb

section
variable {ps ps' : List Ast.Prod} {extra : List (Str × List Sym)} {start start' : Ast.Prod} {g g' : Grammar}

theorem prods_keys (hf : ps.find? (fun p => p.isStart) = some start) (hg : Grammar.fromAst ps = .ok g) :
    g.prods.map (fun p => (p.name, p.inputs)) = (start.name ++ ['\''], [.nonTerm start.name]) :: rulesOf ps := by
  obtain ⟨_, e, -, -, hp, -⟩ := Grammar.fromAst_spec hf
  rw [hg] at e; cases e
  rw [hp, List.map_cons]
  congr 1
  rw [List.map_flatMap]
  unfold rulesOf
  congr 1; funext p
  rw [List.map_map]; rfl

theorem inputs_keys (ps : List Production) : ps.flatMap Production.inputs = (ps.map fun p => (p.name, p.inputs)).flatMap Prod.snd := by
  rw [List.flatMap_map]

theorem key_at {ps : List Production} {i : Nat} {k : Str × List Sym} :
    (ps.map fun p => (p.name, p.inputs))[i]? = some k ↔ ∃ p, ps[i]? = some p ∧ p.name = k.1 ∧ p.inputs = k.2 := by
  rw [List.getElem?_map, Option.map_eq_some_iff]
  exact exists_congr fun p => and_congr_right fun _ => Prod.ext_iff

/-- The tokens of a grammar: `$` and what occurs in a body. -/
theorem mem_tokens_iff (hf : ps.find? (fun p => p.isStart) = some start) (hg : Grammar.fromAst ps = .ok g) {x : Sym} :
    x ∈ g.tokens ↔ x = .eof ∨ x = .nonTerm start.name ∨ ∃ B s, (B, s) ∈ rulesOf ps ∧ x ∈ s := by
  obtain ⟨_, e, -, -, -, ht⟩ := Grammar.fromAst_spec hf
  rw [hg] at e; cases e
  rw [ht, List.mem_cons, mem_ofList, inputs_keys, prods_keys hf hg, List.flatMap_cons, List.mem_append]
  simp only [List.mem_singleton, List.mem_flatMap, Prod.exists]

theorem nodup_tokens (he : Expressible ps) (hf : ps.find? (fun p => p.isStart) = some start) (hg : Grammar.fromAst ps = .ok g) :
    g.tokens.Nodup := by
  obtain ⟨_, e, -, -, -, ht⟩ := Grammar.fromAst_spec hf
  rw [hg] at e; cases e
  rw [ht, List.nodup_cons]
  refine ⟨?_, (sorted_ofList _).nodup⟩
  rw [mem_ofList, inputs_keys, prods_keys hf hg]
  simp only [List.flatMap_cons, List.mem_append, List.mem_singleton, reduceCtorEq, false_or, List.mem_flatMap, Prod.exists, not_exists,
    not_and]
  intro A r hr
  simp only [rulesOf, List.mem_flatMap, List.mem_map, Prod.mk.injEq] at hr
  obtain ⟨p, hp, b, hb, -, rfl⟩ := hr
  intro hm
  obtain ⟨s, hs, h⟩ := List.mem_map.1 hm
  exact (((he p hp).2 b hb).2 s hs).2.1 h

theorem emb_of_adds (he : Expressible ps) (he' : Expressible ps') (hf : ps.find? (fun p => p.isStart) = some start)
    (hf' : ps'.find? (fun p => p.isStart) = some start') (hs : start'.name = start.name) (ha : Adds ps ps' extra)
    (hi : Idle ps start.name extra) (hg : Grammar.fromAst ps = .ok g) (hg' : Grammar.fromAst ps' = .ok g') :
    ∃ σ θ : Nat ≃ Nat, Emb σ θ g g' := by
  have hk := prods_keys hf hg
  have hk' := prods_keys hf' hg'
  rw [hs] at hk'
  obtain ⟨σ, hσ⟩ := perm_places ha.symm
  have hsub : ∀ x ∈ g.tokens, x ∈ g'.tokens := by
    intro x
    rw [mem_tokens_iff hf hg, mem_tokens_iff hf' hg', hs]
    rintro (h | h | ⟨B, s, h1, h2⟩)
    · exact .inl h
    · exact .inr (.inl h)
    · exact .inr (.inr ⟨B, s, ha.mem_iff.2 (by simp [h1]), h2⟩)
  have hn := nodup_tokens he hf hg
  have hn' := nodup_tokens he' hf' hg'
  obtain ⟨_, e, -, -, -, ht⟩ := Grammar.fromAst_spec hf
  rw [hg] at e; cases e
  obtain ⟨_, e, -, -, -, ht'⟩ := Grammar.fromAst_spec hf'
  rw [hg'] at e; cases e
  generalize ofList (g.prods.flatMap Production.inputs) = T at ht
  generalize ofList (g'.prods.flatMap Production.inputs) = T' at ht'
  rw [ht] at hn hsub; rw [ht'] at hn' hsub
  have hperm : T'.Perm (T ++ T'.filter fun x => x ∉ T) := by
    refine (List.perm_ext_iff_of_nodup (List.nodup_cons.1 hn').2 ?_).2 fun x => ?_
    · refine List.nodup_append.2 ⟨(List.nodup_cons.1 hn).2, (List.nodup_cons.1 hn').2.filter _, ?_⟩
      rintro x hx y hy rfl
      simp only [List.mem_filter, decide_eq_true_eq] at hy
      exact hy.2 hx
    · simp only [List.mem_append, List.mem_filter, decide_eq_true_eq]
      constructor
      · intro h
        by_cases hx : x ∈ T
        · exact .inl hx
        · exact .inr ⟨h, hx⟩
      · rintro (h | h)
        · have := hsub x (List.mem_cons_of_mem _ h)
          rcases List.mem_cons.1 this with rfl | h'
          · exact absurd h (List.nodup_cons.1 hn).1
          · exact h'
        · exact h.1
  obtain ⟨θ, hθ⟩ := perm_places hperm.symm
  have hkey : ∀ i, (g'.prods.map fun p => (p.name, p.inputs))[later σ i]? =
      ((g.prods.map fun p => (p.name, p.inputs)) ++ extra)[i]? := by
    intro i
    rw [hk, hk', List.cons_append]
    cases i with
    | zero => rfl
    | succ i => exact hσ i
  have htok : ∀ k, g'.tokens[later θ k]? = (g.tokens ++ T'.filter fun x => x ∉ T)[k]? := by
    intro k
    rw [ht, ht', List.cons_append]
    cases k with
    | zero => rfl
    | succ k => exact hθ k
  refine ⟨later σ, later θ, ⟨fun i p hp => ?_, fun i p' hp hA => ?_, fun k t h => ?_, fun k t h hm => ?_, rfl, rfl, ⟨?_, ?_⟩, ?_⟩⟩
  · have h1 : (g.prods.map fun p => (p.name, p.inputs))[i]? = some (p.name, p.inputs) := key_at.2 ⟨p, hp, rfl, rfl⟩
    have h2 := hkey i
    rw [List.getElem?_append_left (List.getElem?_eq_some_iff.1 h1).1, h1] at h2
    exact key_at.1 h2
  · have h1 : (g'.prods.map fun p => (p.name, p.inputs))[later σ i]? = some (p'.name, p'.inputs) := key_at.2 ⟨p', hp, rfl, rfl⟩
    rw [hkey] at h1
    by_cases hlt : i < (g.prods.map fun p => (p.name, p.inputs)).length
    · rw [List.length_map] at hlt
      exact ⟨_, List.getElem?_eq_getElem hlt⟩
    · rw [List.getElem?_append_right (Nat.le_of_not_lt hlt)] at h1
      obtain ⟨k1, k2⟩ := hi _ _ (List.mem_of_getElem? h1)
      rcases (mem_tokens_iff hf hg).1 hA with h | h | ⟨B, s, h2, h3⟩
      · cases h
      · exact absurd (Sym.nonTerm.inj h) k1
      · exact absurd h3 (k2 B s h2)
  · rw [htok, List.getElem?_append_left (List.getElem?_eq_some_iff.1 h).1, h]
  · rw [htok] at h
    by_cases hlt : k < g.tokens.length
    · rwa [List.getElem?_append_left hlt] at h
    · rw [List.getElem?_append_right (Nat.le_of_not_lt hlt)] at h
      have := List.mem_of_getElem? h
      simp only [List.mem_filter, decide_eq_true_eq] at this
      rw [ht] at hm
      rcases List.mem_cons.1 hm with rfl | hm
      · exact absurd this.1 (List.nodup_cons.1 hn').1
      · exact absurd hm this.2
  · have : (g.prods.map fun p => (p.name, p.inputs))[0]? =
      some (start.name ++ ['\''], [.nonTerm start.name]) := by rw [hk]; rfl
    obtain ⟨p, hp, _⟩ := key_at.1 this
    exact ⟨p, hp⟩
  · exact ⟨.eof, by rw [ht]; rfl⟩
  · intro p hp x hx
    rw [mem_tokens_iff hf hg]
    have : (p.name, p.inputs) ∈ g.prods.map fun p => (p.name, p.inputs) := List.mem_map.2 ⟨p, hp, rfl⟩
    rw [hk] at this
    rcases List.mem_cons.1 this with h | h
    · simp only [Prod.mk.injEq] at h
      rw [h.2, List.mem_singleton] at hx
      exact .inr (.inl hx)
    · exact .inr (.inr ⟨_, _, h, hx⟩)

/-! ## When tables can be built -/

theorem Adds.rule (ha : Adds ps ps' extra) {A : Str} {r : List Sym} (h : AstRule ps A r) : AstRule ps' A r :=
  astRule_iff.2 (ha.mem_iff.2 (List.mem_append_left _ (astRule_iff.1 h)))

/-- The names that matter: the start symbol and what occurs in a body. -/
def Seen (ps : List Ast.Prod) (S A : Str) : Prop := A = S ∨ ∃ B s, AstRule ps B s ∧ Sym.nonTerm A ∈ s

theorem Adds.rule_back (ha : Adds ps ps' extra) {S : Str} (hi : Idle ps S extra) {A : Str} {r : List Sym} (h : AstRule ps' A r)
    (hA : Seen ps S A) : AstRule ps A r := by
  rcases List.mem_append.1 (ha.mem_iff.1 (astRule_iff.1 h)) with h | h
  · exact astRule_iff.2 h
  · obtain ⟨h1, h2⟩ := hi _ _ h
    rcases hA with hA | ⟨B, s, h3, h4⟩
    · exact absurd hA h1
    · exact absurd h4 (h2 B s (astRule_iff.1 h3))

theorem Adds.uses (ha : Adds ps ps' extra) {A B : Str} (h : Uses (AstRule ps) A B) : Uses (AstRule ps') A B := by
  induction h with
  | refl => exact .refl
  | tail _ hr hm ih => exact .tail ih (ha.rule hr) hm

theorem Adds.uses_back (ha : Adds ps ps' extra) {S : Str} (hi : Idle ps S extra) {B : Str} (h : Uses (AstRule ps') S B) :
    Uses (AstRule ps) S B ∧ Seen ps S B := by
  induction h with
  | refl => exact ⟨.refl, .inl rfl⟩
  | tail _ hr hm ih =>
    have hr' := ha.rule_back hi hr ih.2
    exact ⟨.tail ih.1 hr' hm, .inr ⟨_, _, hr', hm⟩⟩

theorem Adds.leftReach (ha : Adds ps ps' extra) {A B : Str} (h : LeftReach (AstRule ps) A B) : LeftReach (AstRule ps') A B := by
  induction h with
  | refl => exact .refl
  | tail _ hc ih => obtain ⟨r, hr⟩ := hc; exact .tail ih ⟨r, ha.rule hr⟩

theorem Adds.leftCall_back (ha : Adds ps ps' extra) {S : Str} (hi : Idle ps S extra) {A B : Str} (h : LeftCall (AstRule ps') A B)
    (hA : Seen ps S A) : LeftCall (AstRule ps) A B ∧ Seen ps S B := by
  obtain ⟨r, hr⟩ := h
  have hr' := ha.rule_back hi hr hA
  exact ⟨⟨r, hr'⟩, .inr ⟨_, _, hr', by simp⟩⟩

theorem Adds.leftReach_back (ha : Adds ps ps' extra) {S : Str} (hi : Idle ps S extra) {A B : Str} (h : LeftReach (AstRule ps') A B)
    (hA : Seen ps S A) : LeftReach (AstRule ps) A B ∧ Seen ps S B := by
  induction h with
  | refl => exact ⟨.refl, hA⟩
  | tail _ hc ih =>
    obtain ⟨h1, h2⟩ := ha.leftCall_back hi hc ih.2
    exact ⟨.tail ih.1 h1, h2⟩

theorem Adds.buildable (ha : Adds ps ps' extra) {S : Str} (hi : Idle ps S extra) :
    Buildable (AstRule ps') S ↔ Buildable (AstRule ps) S := by
  constructor
  · intro hb
    refine ⟨fun A hA => ?_, fun A B hA hB hR => ?_⟩
    · obtain ⟨r, hr⟩ := hb.defined A (ha.uses hA)
      exact ⟨r, ha.rule_back hi hr (ha.uses_back hi (ha.uses hA)).2⟩
    · obtain ⟨C, l, D, r, h1, h2⟩ := hA
      obtain ⟨C', ⟨r', h3⟩, h4⟩ := hR
      exact hb.first A B ⟨C, l, D, r, ha.uses h1, ha.rule h2⟩ (ha.leftReach hB) ⟨C', ⟨r', ha.rule h3⟩, ha.leftReach h4⟩
  · intro hb
    refine ⟨fun A hA => ?_, fun A B hA hB hR => ?_⟩
    · obtain ⟨r, hr⟩ := hb.defined A (ha.uses_back hi hA).1
      exact ⟨r, ha.rule hr⟩
    · obtain ⟨C, l, D, r, h1, h2⟩ := hA
      obtain ⟨k1, k2⟩ := ha.uses_back hi h1
      have h2' := ha.rule_back hi h2 k2
      have hsA : Seen ps S A := .inr ⟨_, _, h2', by simp⟩
      obtain ⟨hB', hsB⟩ := ha.leftReach_back hi hB hsA
      obtain ⟨C', h3, h4⟩ := hR
      obtain ⟨h3', hsC⟩ := ha.leftCall_back hi h3 hsB
      exact hb.first A B ⟨C, l, D, r, k1, h2'⟩ hB' ⟨C', h3', (ha.leftReach_back hi h4 hsC).1⟩

theorem Adds.hasRegex (ha : Adds ps ps' extra) (hk : KnownTerms ps extra) (r : Str) : HasRegex ps' r ↔ HasRegex ps r := by
  rw [Renamed.hasRegex_iff, Renamed.hasRegex_iff]
  constructor
  · rintro ⟨A, l, h1, h2⟩
    rcases List.mem_append.1 (ha.mem_iff.1 h1) with h | h
    · exact ⟨A, l, h, h2⟩
    · obtain ⟨B, s, h3, h4⟩ := hk A l h _ h2 trivial
      exact ⟨B, s, h3, h4⟩
  · rintro ⟨A, l, h1, h2⟩
    exact ⟨A, l, ha.mem_iff.2 (List.mem_append_left _ h1), h2⟩

theorem Adds.terms (hf : ps.find? (fun p => p.isStart) = some start) (hf' : ps'.find? (fun p => p.isStart) = some start')
    (ha : Adds ps ps' extra) (hk : KnownTerms ps extra) (hg : Grammar.fromAst ps = .ok g) (hg' : Grammar.fromAst ps' = .ok g') :
    termsOf g.tokens = termsOf g'.tokens := by
  have hm : ∀ s, s ∈ termsOf g.tokens ↔ s ∈ termsOf g'.tokens := by
    intro s
    simp only [mem_termsOf, mem_tokens_iff hf hg, mem_tokens_iff hf' hg']
    refine and_congr_left fun hs => ?_
    constructor
    · rintro (rfl | rfl | ⟨B, s', h1, h2⟩)
      · exact hs.elim
      · exact hs.elim
      · exact .inr (.inr ⟨B, s', ha.mem_iff.2 (List.mem_append_left _ h1), h2⟩)
    · rintro (rfl | rfl | ⟨B, s', h1, h2⟩)
      · exact hs.elim
      · exact hs.elim
      · rcases List.mem_append.1 (ha.mem_iff.1 h1) with h | h
        · exact .inr (.inr ⟨B, s', h, h2⟩)
        · exact .inr (.inr (hk B s' h s h2 hs))
  obtain ⟨_, e, -, -, -, ht⟩ := Grammar.fromAst_spec hf
  rw [hg] at e; cases e
  obtain ⟨_, e, -, -, -, ht'⟩ := Grammar.fromAst_spec hf'
  rw [hg'] at e; cases e
  have e : ∀ X : List Sym, termsOf (.eof :: ofList X) = termsOf (ofList X) := fun X => rfl
  rw [ht, ht', e, e] at hm ⊢
  exact sorted_ext (List.Pairwise.filter _ (sorted_ofList _)) (List.Pairwise.filter _ (sorted_ofList _)) hm

end
end Verif.Spec
