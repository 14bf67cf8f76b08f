import Verif.Proofs.IdleOk

/-! # Lemmas: trees of a grammar with more rules (for `Verif.Props.MoreRules`) -/

namespace Verif
open Verif.Spec

variable {ps ps' : List Ast.Prod} {extra : List (Str × List Sym)} {start start' : Ast.Prod} {g g' : Grammar}

theorem places_of_adds (hf : ps.find? (fun p => p.isStart) = some start)
    (hf' : ps'.find? (fun p => p.isStart) = some start') (hs : start'.name = start.name) (ha : Adds ps ps' extra)
    (hg : Grammar.fromAst ps = .ok g) (hg' : Grammar.fromAst ps' = .ok g') :
    ∃ σ : Nat ≃ Nat, ∀ i p, g.prods[i]? = some p → ∃ p', g'.prods[σ i]? = some p' ∧ p'.name = p.name ∧ p'.inputs = p.inputs := by
  have hk := prods_keys hf hg
  have hk' := prods_keys hf' hg'
  rw [hs] at hk'
  obtain ⟨σ, hσ⟩ := perm_places ha.symm
  refine ⟨later σ, fun i p hp => ?_⟩
  have h1 : (g.prods.map fun p => (p.name, p.inputs))[i]? = some (p.name, p.inputs) := key_at.2 ⟨p, hp, rfl, rfl⟩
  have h2 : (g'.prods.map fun p => (p.name, p.inputs))[later σ i]? =
      ((g.prods.map fun p => (p.name, p.inputs)) ++ extra)[i]? := by
    rw [hk, hk', List.cons_append]
    cases i with
    | zero => rfl
    | succ i => exact hσ i
  rw [List.getElem?_append_left (List.getElem?_eq_some_iff.1 h1).1, h1] at h2
  exact key_at.1 h2

theorem valid_places {σ : Nat → Nat} {ps ps' : List Production}
    (h : ∀ i p, ps[i]? = some p → ∃ p', ps'[σ i]? = some p' ∧ p'.name = p.name ∧ p'.inputs = p.inputs) :
    ∀ f : Forest, f.Valid ps → (Emb.renum σ f).Valid ps' ∧ (Emb.renum σ f).roots ps' = f.roots ps
  | .nil, _ => ⟨trivial, rfl⟩
  | .leaf t f, hv => by
    obtain ⟨h1, h2⟩ := valid_places h f hv.2
    exact ⟨⟨hv.1, h1⟩, by simp [Emb.renum, Forest.roots, h2]⟩
  | .node p kids f, hv => by
    obtain ⟨⟨prod, hp, hi⟩, hk, hf⟩ := hv
    obtain ⟨k1, k2⟩ := valid_places h kids hk
    obtain ⟨f1, f2⟩ := valid_places h f hf
    obtain ⟨p', l1, l2, l3⟩ := h _ _ hp
    refine ⟨⟨⟨p', l1, by rw [l3, hi, k2]⟩, k1, f1⟩, ?_⟩
    simp [Emb.renum, Forest.roots, f2, l1, hp, l2]

theorem isTree_places {σ : Nat → Nat} {ps ps' : List Production}
    (h : ∀ i p, ps[i]? = some p → ∃ p', ps'[σ i]? = some p' ∧ p'.name = p.name ∧ p'.inputs = p.inputs) {S : Str} {f : Forest}
    {ws : List Sym} (hf : IsTree ps S f ws) : IsTree ps' S (Emb.renum σ f) ws := by
  obtain ⟨h1, h2, h3⟩ := hf
  obtain ⟨k1, k2⟩ := valid_places h f h1
  exact ⟨k1, by rw [k2, h2], by rw [Emb.yield_renum, h3]⟩

theorem valid_places_back {σ : Nat ≃ Nat} {ps ps' : List Production}
    (h : ∀ i p, ps[i]? = some p → ∃ p', ps'[σ i]? = some p' ∧ p'.name = p.name ∧ p'.inputs = p.inputs) :
    ∀ f : Forest, f.Valid ps' → (∀ k ∈ f.post, σ.symm k < ps.length) →
      (Emb.renum σ.symm f).Valid ps ∧ (Emb.renum σ.symm f).roots ps = f.roots ps'
  | .nil, _, _ => ⟨trivial, rfl⟩
  | .leaf t f, hv, hr => by
    obtain ⟨h1, h2⟩ := valid_places_back h f hv.2 hr
    exact ⟨⟨hv.1, h1⟩, by simp [Emb.renum, Forest.roots, h2]⟩
  | .node p kids f, hv, hr => by
    obtain ⟨⟨prod, hp, hi⟩, hk, hf⟩ := hv
    obtain ⟨k1, k2⟩ := valid_places_back h kids hk fun k hk => hr k (by simp [Forest.post, hk])
    obtain ⟨f1, f2⟩ := valid_places_back h f hf fun k hk => hr k (by simp [Forest.post, hk])
    have hlt := hr p (by simp [Forest.post])
    obtain ⟨p', l1, l2, l3⟩ := h _ _ (List.getElem?_eq_getElem hlt)
    rw [Equiv.apply_symm_apply, hp, Option.some.injEq] at l1
    subst l1
    refine ⟨⟨⟨_, List.getElem?_eq_getElem hlt, by rw [← l3, hi, k2]⟩, k1, f1⟩, ?_⟩
    simp [Emb.renum, Forest.roots, f2, List.getElem?_eq_getElem hlt, hp, l2]

theorem isTree_places_back {σ : Nat ≃ Nat} {ps ps' : List Production}
    (h : ∀ i p, ps[i]? = some p → ∃ p', ps'[σ i]? = some p' ∧ p'.name = p.name ∧ p'.inputs = p.inputs) {S : Str} {f : Forest}
    {ws : List Sym} (hf : IsTree ps' S f ws) {out : List Nat} (ho : f.post = out.map σ) (hr : ∀ k ∈ out, k < ps.length) :
    IsTree ps S (Emb.renum σ.symm f) ws ∧ (Emb.renum σ.symm f).post = out := by
  obtain ⟨h1, h2, h3⟩ := hf
  obtain ⟨k1, k2⟩ := valid_places_back h f h1 fun k hk => by
    rw [ho, List.mem_map] at hk
    obtain ⟨i, hi, rfl⟩ := hk
    rw [Equiv.symm_apply_apply]; exact hr i hi
  refine ⟨⟨k1, by rw [k2, h2], by rw [Emb.yield_renum, h3]⟩, ?_⟩
  rw [Emb.post_renum, ho, List.map_map]
  conv => rhs; rw [← List.map_id out]
  congr 1; funext x; simp

end Verif
