import Mathlib.Data.List.Nodup
import Verif.Spec.Rename
import Verif.Proofs.GrammarOk

/-! # Renaming and reordering the rules of a grammar -/

namespace Verif.Spec
open Verif

/-- The elements of a permuted list are found at permuted places. -/
theorem perm_places {α : Type} {l l' : List α} (h : l.Perm l') : ∃ σ : Nat ≃ Nat, ∀ i, l'[σ i]? = l[i]? := by
  induction h with
  | nil => exact ⟨Equiv.refl _, fun _ => rfl⟩
  | @cons x l l' _ ih =>
    obtain ⟨σ, hσ⟩ := ih
    refine ⟨⟨fun i => match i with | 0 => 0 | i + 1 => σ i + 1, fun i => match i with | 0 => 0 | i + 1 => σ.symm i + 1,
      fun i => ?_, fun i => ?_⟩, fun i => ?_⟩
    · cases i <;> simp
    · cases i <;> simp
    · cases i with
      | zero => rfl
      | succ i => exact hσ i
  | swap x y l =>
    refine ⟨⟨fun i => match i with | 0 => 1 | 1 => 0 | i + 2 => i + 2, fun i => match i with | 0 => 1 | 1 => 0 | i + 2 => i + 2,
      fun i => ?_, fun i => ?_⟩, fun i => ?_⟩
    · rcases i with _ | _ | i <;> rfl
    · rcases i with _ | _ | i <;> rfl
    · rcases i with _ | _ | i <;> rfl
  | trans _ _ ih1 ih2 =>
    obtain ⟨σ, h1⟩ := ih1
    obtain ⟨τ, h2⟩ := ih2
    exact ⟨σ.trans τ, fun i => (h2 _).trans (h1 i)⟩

@[simp] theorem renameSym_symm (ρ : Str ≃ Str) (x : Sym) : renameSym ρ.symm (renameSym ρ x) = x := by
  cases x <;> simp [renameSym]

@[simp] theorem renameSym_symm' (ρ : Str ≃ Str) (x : Sym) : renameSym ρ (renameSym ρ.symm x) = x := by
  cases x <;> simp [renameSym]

theorem renameSym_map_symm (ρ : Str ≃ Str) (l : List Sym) : (l.map (renameSym ρ)).map (renameSym ρ.symm) = l := by
  rw [List.map_map]
  conv => rhs; rw [← List.map_id l]
  congr 1; funext x; simp

theorem renameSym_inj (ρ : Str ≃ Str) {x y : Sym} (h : renameSym ρ x = renameSym ρ y) : x = y := by
  rw [← renameSym_symm ρ x, h, renameSym_symm]

theorem renameSym_term (ρ : Str → Str) {x : Sym} (h : IsTerm x) : renameSym ρ x = x := by
  cases x <;> first | rfl | exact h.elim

theorem isTerm_renameSym (ρ : Str → Str) (x : Sym) : IsTerm (renameSym ρ x) ↔ IsTerm x := by cases x <;> rfl

theorem renameSym_nonTerm (ρ : Str ≃ Str) {x : Sym} : (∀ A, renameSym ρ x ≠ .nonTerm A) ↔ ∀ A, x ≠ .nonTerm A := by
  cases x <;> simp [renameSym]

/-- `g'` is `g` with productions and tokens numbered differently and nonterminals renamed. -/
structure Iso (σ θ : Nat ≃ Nat) (ρ : Str ≃ Str) (g g' : Grammar) : Prop where
  prod : ∀ i, (g'.prods[σ i]?).map (fun p => (p.name, p.inputs)) =
    (g.prods[i]?).map fun p => (ρ p.name, p.inputs.map (renameSym ρ))
  tok : ∀ k, g'.tokens[θ k]? = (g.tokens[k]?).map (renameSym ρ)
  prod0 : σ 0 = 0
  tok0 : θ 0 = 0

namespace Iso
variable {σ θ : Nat ≃ Nat} {ρ : Str ≃ Str} {g g' : Grammar}

theorem symm (h : Iso σ θ ρ g g') : Iso σ.symm θ.symm ρ.symm g' g where
  prod i := by
    have := h.prod (σ.symm i)
    rw [Equiv.apply_symm_apply] at this
    cases h1 : g'.prods[i]? with
    | none =>
      rw [h1] at this
      cases h2 : g.prods[σ.symm i]? with
      | none => rfl
      | some p => rw [h2] at this; cases this
    | some p' =>
      rw [h1] at this
      cases h2 : g.prods[σ.symm i]? with
      | none => rw [h2] at this; cases this
      | some p =>
        rw [h2] at this
        simp only [Option.map_some, Option.some.injEq, Prod.mk.injEq] at this ⊢
        rw [this.1, this.2]
        exact ⟨by simp, (renameSym_map_symm ρ _).symm⟩
  tok k := by
    have := h.tok (θ.symm k)
    rw [Equiv.apply_symm_apply] at this
    rw [this, Option.map_map]
    cases g.tokens[θ.symm k]? <;> simp
  prod0 := by rw [Equiv.symm_apply_eq, h.prod0]
  tok0 := by rw [Equiv.symm_apply_eq, h.tok0]

theorem at_ (h : Iso σ θ ρ g g') {i : Nat} {p : Production} (hp : g.prods[i]? = some p) :
    ∃ p', g'.prods[σ i]? = some p' ∧ p'.name = ρ p.name ∧ p'.inputs = p.inputs.map (renameSym ρ) := by
  have := h.prod i
  rw [hp] at this
  cases h1 : g'.prods[σ i]? with
  | none => rw [h1] at this; cases this
  | some p' =>
    rw [h1] at this
    simp only [Option.map_some, Option.some.injEq, Prod.mk.injEq] at this
    exact ⟨p', rfl, this⟩

theorem tok_at (h : Iso σ θ ρ g g') {k : Nat} {t : Sym} (ht : g.tokens[k]? = some t) : g'.tokens[θ k]? = some (renameSym ρ t) := by
  rw [h.tok, ht]; rfl

theorem rule (h : Iso σ θ ρ g g') {A : Str} {r : List Sym} (hr : Rule g.prods A r) :
    Rule g'.prods (ρ A) (r.map (renameSym ρ)) := by
  obtain ⟨p, hp, rfl, rfl⟩ := hr
  obtain ⟨i, hi⟩ := List.getElem?_of_mem hp
  obtain ⟨p', h1, h2, h3⟩ := h.at_ hi
  exact ⟨p', List.mem_of_getElem? h1, h2, h3⟩

theorem steps (h : Iso σ θ ρ g g') {α β : List Sym} (hs : Steps (Rule g.prods) α β) :
    Steps (Rule g'.prods) (α.map (renameSym ρ)) (β.map (renameSym ρ)) := by
  induction hs with
  | refl => exact .refl
  | tail _ hst ih =>
    cases hst with
    | @mk l r A rhs hr =>
      refine .tail ih ?_
      have := Step.mk (l := l.map (renameSym ρ)) (r := r.map (renameSym ρ)) (h.rule hr)
      simpa [renameSym] using this

theorem starts (h : Iso σ θ ρ g g') {α : List Sym} {t : Sym} (hs : Starts (Rule g.prods) α t) :
    Starts (Rule g'.prods) (α.map (renameSym ρ)) (renameSym ρ t) := by
  obtain ⟨h1, β, h2⟩ := hs
  exact ⟨(renameSym_nonTerm ρ).2 h1, β.map (renameSym ρ), by simpa using h.steps h2⟩

theorem input (h : Iso σ θ ρ g g') {i : Nat} {p : Production} (hp : g.prods[i]? = some p) :
    ∃ p', g'.prods[σ i]? = some p' ∧ p'.name = ρ p.name ∧ p'.inputs = p.inputs.map (renameSym ρ) ∧
      ∀ d : Nat, p'.inputs[d]? = (p.inputs[d]?).map (renameSym ρ) := by
  obtain ⟨p', h1, h2, h3⟩ := h.at_ hp
  exact ⟨p', h1, h2, h3, fun d => by rw [h3, List.getElem?_map]⟩

theorem asks (h : Iso σ θ ρ g g') {it : Item} {la q b : Nat} (ha : Asks g it la q b) :
    Asks g' (σ it.1, it.2) (θ la) (σ q) (θ b) := by
  obtain ⟨p, B, p', t, tb, h1, h2, h3, h4, h5, h6, h7⟩ := ha
  obtain ⟨r, k1, k2, k3, k4⟩ := h.input h1
  obtain ⟨r', l1, l2, -, -⟩ := h.input h3
  refine ⟨r, ρ B, r', renameSym ρ t, renameSym ρ tb, k1, ?_, l1, by rw [l2, h4], h.tok_at h5, ?_, h.tok_at h7⟩
  · rw [k4, h2]; rfl
  · have := h.starts h6
    rw [k3]
    simpa using this

/-- The items of `I` under the other numbers. -/
def tr (σ θ : Nat ≃ Nat) (I : Item → Nat → Prop) : Item → Nat → Prop := fun it la => I (σ.symm it.1, it.2) (θ.symm la)

@[simp] theorem tr_apply (I : Item → Nat → Prop) (i d la : Nat) : tr σ θ I (σ i, d) (θ la) ↔ I (i, d) la := by
  simp [tr]

@[simp] theorem tr_symm (I : Item → Nat → Prop) : tr σ.symm θ.symm (tr σ θ I) = I := by
  funext it la; simp [tr]

@[simp] theorem tr_symm' (I : Item → Nat → Prop) : tr σ θ (tr σ.symm θ.symm I) = I := by
  funext it la; simp [tr]

theorem tr_eq {I J : Item → Nat → Prop} (h1 : ∀ i d la, I (i, d) la → J (σ i, d) (θ la))
    (h2 : ∀ i d la, J (i, d) la → I (σ.symm i, d) (θ.symm la)) : J = tr σ θ I := by
  funext it la
  obtain ⟨i, d⟩ := it
  refine propext ⟨h2 i d la, fun h => ?_⟩
  have := h1 _ _ _ h
  simpa using this

theorem clo_mono (h : Iso σ θ ρ g g') {I : Item → Nat → Prop} {it : Item} {la : Nat} (hc : Clo g I it la) :
    Clo g' (tr σ θ I) (σ it.1, it.2) (θ la) := by
  induction hc with
  | base hi => exact .base (by simpa using hi)
  | step _ ha ih => exact .step ih (h.asks ha)

theorem clo (h : Iso σ θ ρ g g') (I : Item → Nat → Prop) : Clo g' (tr σ θ I) = tr σ θ (Clo g I) :=
  tr_eq (fun i d la hc => h.clo_mono hc) fun i d la hc => by simpa using h.symm.clo_mono hc

theorem adv_mono (h : Iso σ θ ρ g g') {I : Item → Nat → Prop} {X : Sym} {it : Item} {la : Nat} (ha : Advanced g I X it la) :
    Advanced g' (tr σ θ I) (renameSym ρ X) (σ it.1, it.2) (θ la) := by
  obtain ⟨d, p, h1, h2, h3, h4⟩ := ha
  obtain ⟨p', k1, _, _, k4⟩ := h.input h3
  exact ⟨d, p', h1, by simpa using h2, k1, by rw [k4, h4]; rfl⟩

theorem adv (h : Iso σ θ ρ g g') (I : Item → Nat → Prop) (X : Sym) :
    Advanced g' (tr σ θ I) (renameSym ρ X) = tr σ θ (Advanced g I X) :=
  tr_eq (fun i d la hc => h.adv_mono hc) fun i d la hc => by simpa using h.symm.adv_mono hc

theorem init (h : Iso σ θ ρ g g') :
    (fun (it : Item) (la : Nat) => it = (0, 0) ∧ la = 0) = tr σ θ fun it la => it = (0, 0) ∧ la = 0 := by
  have e1 := h.symm.prod0
  have e2 := h.symm.tok0
  refine tr_eq (fun i d la => ?_) fun i d la => ?_
  · simp only [Prod.mk.injEq, and_imp]
    rintro rfl rfl rfl
    exact ⟨⟨h.prod0, rfl⟩, h.tok0⟩
  · simp only [Prod.mk.injEq, and_imp]
    rintro rfl rfl rfl
    exact ⟨⟨e1, rfl⟩, e2⟩

theorem reach (h : Iso σ θ ρ g g') {I : Item → Nat → Prop} (hr : Reach g I) : Reach g' (tr σ θ I) := by
  induction hr with
  | init => rw [← h.clo, ← h.init]; exact .init
  | @goto I X _ hn ih =>
    rw [← h.clo, ← h.adv]
    refine .goto ih ?_
    obtain ⟨it, la, ha⟩ := hn
    exact ⟨_, _, h.adv_mono ha⟩

theorem reach_iff (h : Iso σ θ ρ g g') {I : Item → Nat → Prop} : Reach g' (tr σ θ I) ↔ Reach g I :=
  ⟨fun hr => by simpa using h.symm.reach hr, h.reach⟩

theorem sameCore {I J : Item → Nat → Prop} (hs : SameCore I J) : SameCore (tr σ θ I) (tr σ θ J) := by
  intro it
  have := hs (σ.symm it.1, it.2)
  constructor
  · rintro ⟨la, hl⟩
    obtain ⟨lb, hb⟩ := this.1 ⟨_, hl⟩
    exact ⟨θ lb, by simpa [tr] using hb⟩
  · rintro ⟨la, hl⟩
    obtain ⟨lb, hb⟩ := this.2 ⟨_, hl⟩
    exact ⟨θ lb, by simpa [tr] using hb⟩

theorem lalr_mono (h : Iso σ θ ρ g g') {I : Item → Nat → Prop} {it : Item} {la : Nat} (hl : LalrOf g I it la) :
    LalrOf g' (tr σ θ I) (σ it.1, it.2) (θ la) := by
  obtain ⟨J, h1, h2, h3⟩ := hl
  exact ⟨tr σ θ J, h.reach h1, sameCore h2, by simpa using h3⟩

theorem lalr (h : Iso σ θ ρ g g') (I : Item → Nat → Prop) : LalrOf g' (tr σ θ I) = tr σ θ (LalrOf g I) :=
  tr_eq (fun i d la hc => h.lalr_mono hc) fun i d la hc => by simpa using h.symm.lalr_mono hc

theorem kept_mono (h : Iso σ θ ρ g g') {I : Item → Nat → Prop} {X : Sym} (hk : Kept g I X) :
    Kept g' (tr σ θ I) (renameSym ρ X) := by
  unfold Kept
  rw [h.lalr, h.adv, h.clo]
  rcases hk with hk | ⟨J, h1, h2⟩
  · exact .inl (h.reach hk)
  · exact .inr ⟨tr σ θ J, h.reach h1, by rw [h.lalr, h2]⟩

theorem kept (h : Iso σ θ ρ g g') (I : Item → Nat → Prop) (X : Sym) :
    Kept g' (tr σ θ I) (renameSym ρ X) ↔ Kept g I X :=
  ⟨fun hk => by simpa using h.symm.kept_mono hk, h.kept_mono⟩

theorem claims (h : Iso σ θ ρ g g') {I : Item → Nat → Prop} {it : Item} {k : Nat} (hc : Claims g I it k) :
    Claims g' (tr σ θ I) (σ it.1, it.2) (θ k) := by
  obtain ⟨p, hp, hc⟩ := hc
  obtain ⟨p', k1, _, _, k4⟩ := h.input hp
  refine ⟨p', k1, ?_⟩
  rcases hc with ⟨h1, h2⟩ | ⟨la, t, h1, h2, h3, h4, h5⟩
  · exact .inl ⟨h.lalr_mono h1, by show p'.inputs[it.2]? = none; rw [k4, h2]; rfl⟩
  · exact .inr ⟨θ la, renameSym ρ t, h.lalr_mono h1, by show p'.inputs[it.2]? = _; rw [k4, h2]; rfl, (renameSym_nonTerm ρ).2 h3,
      h.tok_at h4, h.kept_mono h5⟩

theorem clash_mono (h : Iso σ θ ρ g g') (hc : Clash g) : Clash g' := by
  obtain ⟨I, it, it', k, h1, h2, h3, h4⟩ := hc
  refine ⟨tr σ θ I, _, _, θ k, h.reach h1, fun e => h2 ?_, h.claims h3, h.claims h4⟩
  simp only [Prod.mk.injEq, EmbeddingLike.apply_eq_iff_eq] at e
  exact Prod.ext e.1 e.2

theorem clash (h : Iso σ θ ρ g g') : Clash g' ↔ Clash g := ⟨h.symm.clash_mono, h.clash_mono⟩

end Iso

/-- The forest with other numbers of productions and other names. -/
def Forest.trans (σ : Nat → Nat) (ρ : Str → Str) : Forest → Forest
  | .nil => .nil
  | .leaf t f => .leaf (renameSym ρ t) (f.trans σ ρ)
  | .node p kids f => .node (σ p) (kids.trans σ ρ) (f.trans σ ρ)

theorem Forest.trans_symm (σ : Nat ≃ Nat) (ρ : Str ≃ Str) : ∀ f : Forest, (f.trans σ ρ).trans σ.symm ρ.symm = f
  | .nil => rfl
  | .leaf t f => by simp [trans, trans_symm σ ρ f]
  | .node p kids f => by simp [trans, trans_symm σ ρ f, trans_symm σ ρ kids]

theorem Forest.post_trans (σ : Nat → Nat) (ρ : Str → Str) : ∀ f : Forest, (f.trans σ ρ).post = f.post.map σ
  | .nil => rfl
  | .leaf t f => by simp [trans, post, post_trans σ ρ f]
  | .node p kids f => by simp [trans, post, post_trans σ ρ f, post_trans σ ρ kids]

theorem Forest.yield_trans (σ : Nat → Nat) (ρ : Str → Str) : ∀ f : Forest, (f.trans σ ρ).yield = f.yield.map (renameSym ρ)
  | .nil => rfl
  | .leaf t f => by simp [trans, yield, yield_trans σ ρ f]
  | .node p kids f => by simp [trans, yield, yield_trans σ ρ f, yield_trans σ ρ kids]

namespace Iso
variable {σ θ : Nat ≃ Nat} {ρ : Str ≃ Str} {g g' : Grammar}

/-- The numbers of the productions in a forest. -/
theorem roots_valid (h : Iso σ θ ρ g g') : ∀ f : Forest, f.Valid g.prods →
    (f.trans σ ρ).Valid g'.prods ∧ (f.trans σ ρ).roots g'.prods = (f.roots g.prods).map (renameSym ρ)
  | .nil, _ => ⟨trivial, rfl⟩
  | .leaf t f, hv => by
    obtain ⟨h1, h2⟩ := roots_valid h f hv.2
    exact ⟨⟨(isTerm_renameSym ρ t).2 hv.1, h1⟩, by simp [Forest.trans, Forest.roots, h2]⟩
  | .node p kids f, hv => by
    obtain ⟨⟨prod, hp, hi⟩, hk, hf⟩ := hv
    obtain ⟨k1, k2⟩ := roots_valid h kids hk
    obtain ⟨f1, f2⟩ := roots_valid h f hf
    obtain ⟨p', l1, l2, l3⟩ := h.at_ hp
    refine ⟨⟨⟨p', l1, by rw [l3, hi, k2]⟩, k1, f1⟩, ?_⟩
    simp [Forest.trans, Forest.roots, f2, l1, hp, l2, renameSym]

theorem isTree (h : Iso σ θ ρ g g') {S : Str} {f : Forest} {ws : List Sym} (hf : IsTree g.prods S f ws) :
    IsTree g'.prods (ρ S) (f.trans σ ρ) (ws.map (renameSym ρ)) := by
  obtain ⟨h1, h2, rfl⟩ := hf
  obtain ⟨k1, k2⟩ := h.roots_valid f h1
  exact ⟨k1, by rw [k2, h2]; rfl, Forest.yield_trans _ _ f⟩

theorem keptAlong (h : Iso σ θ ρ g g') : ∀ (f : Forest) (I : Item → Nat → Prop), KeptAlong g I f →
    KeptAlong g' (tr σ θ I) (f.trans σ ρ)
  | .nil, _, _ => trivial
  | .leaf t f, I, hk => by
    refine ⟨h.kept_mono hk.1, ?_⟩
    rw [h.adv, h.clo]
    exact keptAlong h f _ hk.2
  | .node p kids f, I, hk => by
    obtain ⟨h1, prod, h2, h3, h4⟩ := hk
    obtain ⟨p', l1, l2, -⟩ := h.at_ h2
    refine ⟨keptAlong h kids I h1, p', l1, ?_, ?_⟩
    · rw [l2]; exact h.kept_mono h3
    · have := keptAlong h f _ h4
      rw [← h.clo, ← h.adv] at this
      rw [l2]; exact this

theorem keptTree (h : Iso σ θ ρ g g') {f : Forest} (hk : KeptTree g f) : KeptTree g' (f.trans σ ρ) := by
  unfold KeptTree
  rw [h.init, h.clo]
  exact h.keptAlong f _ hk

end Iso
end Verif.Spec

namespace Verif.Spec
open Verif

/-- A permutation of places, one place further. -/
def later (σ : Nat ≃ Nat) : Nat ≃ Nat where
  toFun i := match i with | 0 => 0 | i + 1 => σ i + 1
  invFun i := match i with | 0 => 0 | i + 1 => σ.symm i + 1
  left_inv i := by cases i <;> simp
  right_inv i := by cases i <;> simp

theorem Renamed.name {ρ : Str ≃ Str} {ps ps' : List Ast.Prod} (he' : Expressible ps') (hr : Renamed ρ ps ps') {A : Str} {r : List Sym}
    (h : (A, r) ∈ rulesOf ps) : '\'' ∉ ρ A ∧ ∀ B, Sym.nonTerm B ∈ r → '\'' ∉ ρ B := by
  have : (ρ A, r.map (renameSym ρ)) ∈ rulesOf ps' := hr.mem_iff.2 (List.mem_map.2 ⟨_, h, rfl⟩)
  simp only [rulesOf, List.mem_flatMap, List.mem_map, Prod.mk.injEq] at this
  obtain ⟨p, hp, b, hb, h1, h2⟩ := this
  refine ⟨h1 ▸ (he' p hp).1, fun B hB => ?_⟩
  have : Sym.nonTerm (ρ B) ∈ r.map (renameSym ρ) := List.mem_map.2 ⟨_, hB, rfl⟩
  rw [← h2, List.mem_map] at this
  obtain ⟨s, hs, h3⟩ := this
  exact (((he' p hp).2 b hb).2 s hs).2.2 _ h3

theorem mem_rules_name {ps : List Ast.Prod} (he : Expressible ps) {A : Str} {r : List Sym}
    (h : (A, r) ∈ rulesOf ps) : '\'' ∉ A ∧ ∀ B, Sym.nonTerm B ∈ r → '\'' ∉ B := by
  simp only [rulesOf, List.mem_flatMap, List.mem_map, Prod.mk.injEq] at h
  obtain ⟨p, hp, b, hb, rfl, rfl⟩ := h
  refine ⟨(he p hp).1, fun B hB => ?_⟩
  obtain ⟨s, hs, h3⟩ := List.mem_map.1 hB
  exact (((he p hp).2 b hb).2 s hs).2.2 _ h3

theorem renameSym_congr {ρ ρ' : Str → Str} {x : Sym} (h : ∀ B, x = .nonTerm B → ρ B = ρ' B) : renameSym ρ x = renameSym ρ' x := by
  cases x <;> simp [renameSym]
  exact h _ rfl

theorem iso_of_renamed {ρ : Str ≃ Str} {ps ps' : List Ast.Prod} (he : Expressible ps) (he' : Expressible ps')
    {start start' : Ast.Prod} (hf : ps.find? (fun p => p.isStart) = some start)
    (hf' : ps'.find? (fun p => p.isStart) = some start') (hs : start'.name = ρ start.name) (hr : Renamed ρ ps ps')
    {g g' : Grammar} (hg : Grammar.fromAst ps = .ok g) (hg' : Grammar.fromAst ps' = .ok g') :
    ∃ (σ θ : Nat ≃ Nat) (ρ' : Str ≃ Str), Iso σ θ ρ' g g' ∧ ρ' start.name = ρ start.name ∧
      ∀ A r, (A, r) ∈ rulesOf ps → ρ' A = ρ A ∧ r.map (renameSym ρ') = r.map (renameSym ρ) := by
  obtain ⟨_, e, haug, -, hp, ht⟩ := Grammar.fromAst_spec hf
  rw [hg] at e; cases e
  obtain ⟨_, e, haug', -, hp', ht'⟩ := Grammar.fromAst_spec hf'
  rw [hg'] at e; cases e
  have hn0 := (he start (List.mem_of_find?_eq_some hf)).1
  have hn0' := (he' start' (List.mem_of_find?_eq_some hf')).1
  let ρ' : Str ≃ Str := ρ.trans (Equiv.swap (ρ (start.name ++ ['\''])) (start'.name ++ ['\'']))
  have hρ : ∀ A, '\'' ∉ A → '\'' ∉ ρ A → ρ' A = ρ A := fun A h1 h2 => by
    show Equiv.swap _ _ (ρ A) = ρ A
    refine Equiv.swap_apply_of_ne_of_ne (fun e => h1 ?_) (fun e => h2 ?_)
    · rw [ρ.injective e]; simp
    · rw [e]; simp
  have hρa : ρ' (start.name ++ ['\'']) = start'.name ++ ['\''] := Equiv.swap_apply_left _ _
  have hρs : ρ' start.name = ρ start.name := hρ _ hn0 (hs ▸ hn0')
  have hrule : ∀ A r, (A, r) ∈ rulesOf ps → ρ' A = ρ A ∧ r.map (renameSym ρ') = r.map (renameSym ρ) := fun A r h => by
    obtain ⟨a1, a2⟩ := mem_rules_name he h
    obtain ⟨b1, b2⟩ := hr.name he' h
    refine ⟨hρ _ a1 b1, List.map_congr_left fun x hx => renameSym_congr fun B hB => ?_⟩
    subst hB
    exact hρ _ (a2 _ hx) (b2 _ hx)
  have hkey : g.prods.map (fun p => (p.name, p.inputs)) = (start.name ++ ['\''], [.nonTerm start.name]) :: rulesOf ps := by
    rw [hp, List.map_cons]
    congr 1
    rw [List.map_flatMap]
    unfold rulesOf
    congr 1; funext p
    rw [List.map_map]; rfl
  have hkey' : g'.prods.map (fun p => (p.name, p.inputs)) = (start'.name ++ ['\''], [.nonTerm start'.name]) :: rulesOf ps' := by
    rw [hp', List.map_cons]
    congr 1
    rw [List.map_flatMap]
    unfold rulesOf
    congr 1; funext p
    rw [List.map_map]; rfl
  have hr' : (rulesOf ps').Perm ((rulesOf ps).map fun r => (ρ' r.1, r.2.map (renameSym ρ'))) := by
    refine List.Perm.trans hr (.of_eq (List.map_congr_left fun r h => ?_))
    obtain ⟨h1, h2⟩ := hrule r.1 r.2 h
    rw [h1, h2]
  have hall : (g'.prods.map fun p => (p.name, p.inputs)).Perm
      ((g.prods.map fun p => (p.name, p.inputs)).map fun r => (ρ' r.1, r.2.map (renameSym ρ'))) := by
    rw [hkey, hkey', List.map_cons]
    have : (start'.name ++ ['\''], [Sym.nonTerm start'.name]) =
        (ρ' (start.name ++ ['\'']), [Sym.nonTerm start.name].map (renameSym ρ')) := by
      rw [hρa, hs, ← hρs]; rfl
    rw [this]
    exact hr'.cons _
  obtain ⟨σ, hσ⟩ := perm_places hr'.symm
  have hX : ∀ y, y ∈ g'.prods.flatMap Production.inputs ↔ ∃ x ∈ g.prods.flatMap Production.inputs, renameSym ρ' x = y := by
    intro y
    have e1 : g'.prods.flatMap Production.inputs = (g'.prods.map fun p => (p.name, p.inputs)).flatMap Prod.snd := by
      rw [List.flatMap_map]
    have e2 : g.prods.flatMap Production.inputs = (g.prods.map fun p => (p.name, p.inputs)).flatMap Prod.snd := by
      rw [List.flatMap_map]
    rw [e1, e2, List.mem_flatMap]
    simp only [hall.mem_iff, List.mem_flatMap]
    constructor
    · rintro ⟨r, hr, hy⟩
      obtain ⟨q, hq, rfl⟩ := List.mem_map.1 hr
      obtain ⟨x, hx, rfl⟩ := List.mem_map.1 hy
      exact ⟨x, ⟨q, hq, hx⟩, rfl⟩
    · rintro ⟨x, ⟨q, hq, hx⟩, rfl⟩
      exact ⟨_, List.mem_map.2 ⟨q, hq, rfl⟩, List.mem_map.2 ⟨x, hx, rfl⟩⟩
  have htok : (ofList (g'.prods.flatMap Production.inputs)).Perm
      ((ofList (g.prods.flatMap Production.inputs)).map (renameSym ρ')) := by
    refine (List.perm_ext_iff_of_nodup (sorted_ofList _).nodup
      (List.Nodup.map (fun _ _ h => renameSym_inj ρ' h) (sorted_ofList _).nodup)).2 fun y => ?_
    rw [mem_ofList, hX, List.mem_map]
    simp only [mem_ofList]
  obtain ⟨θ, hθ⟩ := perm_places htok.symm
  refine ⟨later σ, later θ, ρ', ⟨fun i => ?_, fun k => ?_, rfl, rfl⟩, hρs, hrule⟩
  · have e1 : ∀ i : Nat, (g'.prods[i]?).map (fun p => (p.name, p.inputs)) = (g'.prods.map fun p => (p.name, p.inputs))[i]? :=
      fun i => by rw [List.getElem?_map]
    have e2 : (g.prods[i]?).map (fun p => (ρ' p.name, p.inputs.map (renameSym ρ'))) =
        ((g.prods.map fun p => (p.name, p.inputs)).map fun r => (ρ' r.1, r.2.map (renameSym ρ')))[i]? := by
      rw [List.map_map, List.getElem?_map]; rfl
    rw [e1, e2, hkey, hkey', List.map_cons]
    cases i with
    | zero =>
      show some _ = some _
      rw [hρa, hs, ← hρs]; rfl
    | succ i => exact hσ i
  · rw [ht, ht', ← List.getElem?_map, List.map_cons]
    cases k with
    | zero => rfl
    | succ k => exact hθ k

end Verif.Spec
