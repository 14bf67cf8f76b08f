import Verif.Proofs.FirstSpec
import Verif.Model.Parse

/-! Parse trees and derivations. -/

namespace Verif
open Spec Grammar

namespace Spec
variable {R : Str → List Sym → Prop}

theorem Steps.head {α β γ : List Sym} (h : Step R α β) (h' : Steps R β γ) : Steps R α γ :=
  (Steps.tail .refl h).trans h'

/-- Induction from the front. -/
theorem Steps.headInd {P : List Sym → Prop} {γ : List Sym} (h0 : P γ)
    (hs : ∀ α β, Step R α β → Steps R β γ → P β → P α) {α : List Sym} (h : Steps R α γ) : P α := by
  induction h with
  | refl => exact h0
  | tail h1 h2 ih => exact ih (hs _ _ h2 .refl h0) fun α β h3 h4 h5 => hs α β h3 (h4.tail h2) h5

namespace Forest
variable {ps : List Production}

/-- Concatenation of tree lists. -/
def append : Forest → Forest → Forest
  | nil, f => f
  | leaf t r, f => leaf t (r.append f)
  | node p k r, f => node p k (r.append f)

theorem yield_append : ∀ f f' : Forest, (f.append f').yield = f.yield ++ f'.yield
  | nil, _ => rfl
  | leaf t r, f => by simp [append, yield, yield_append r f]
  | node p k r, f => by simp [append, yield, yield_append r f]

theorem post_append : ∀ f f' : Forest, (f.append f').post = f.post ++ f'.post
  | nil, _ => rfl
  | leaf t r, f => by simp [append, post, post_append r f]
  | node p k r, f => by simp [append, post, post_append r f]

theorem roots_append : ∀ f f' : Forest, (f.append f').roots ps = f.roots ps ++ f'.roots ps
  | nil, _ => rfl
  | leaf t r, f => by simp [append, roots, roots_append r f]
  | node p k r, f => by simp [append, roots, roots_append r f]

theorem valid_append : ∀ f f' : Forest, (f.append f').Valid ps ↔ f.Valid ps ∧ f'.Valid ps
  | nil, _ => by simp [append, Valid]
  | leaf t r, f => by simp [append, Valid, valid_append r f, and_assoc]
  | node p k r, f => by simp [append, Valid, valid_append r f, and_assoc]

theorem split : ∀ (f : Forest) (α β : List Sym), f.roots ps = α ++ β →
    ∃ f1 f2 : Forest, f = f1.append f2 ∧ f1.roots ps = α ∧ f2.roots ps = β
  | f, [], β, h => ⟨nil, f, rfl, rfl, h⟩
  | nil, x :: α, β, h => by simp [roots] at h
  | leaf t r, x :: α, β, h => by
    simp only [roots, List.cons_append, List.cons.injEq] at h
    obtain ⟨f1, f2, h1, h2, h3⟩ := split r α β h.2
    exact ⟨leaf t f1, f2, by simp [append, h1], by simp [roots, h2, h.1], h3⟩
  | node p k r, x :: α, β, h => by
    simp only [roots, List.cons_append, List.cons.injEq] at h
    obtain ⟨f1, f2, h1, h2, h3⟩ := split r α β h.2
    exact ⟨node p k f1, f2, by simp [append, h1], by simp [roots, h2, ← h.1], h3⟩

/-- A forest derives its leaves from its roots. -/
theorem steps : ∀ f : Forest, f.Valid ps → Steps (Rule ps) (f.roots ps) f.yield
  | nil, _ => .refl
  | leaf t r, h => by
    have := (steps r h.2).ctx [t] []
    simpa [roots, yield] using this
  | node p k r, ⟨⟨prod, hp, hi⟩, hk, hr⟩ => by
    have h1 : Steps (Rule ps) [.nonTerm prod.name] prod.inputs :=
      .rule ⟨prod, List.mem_of_getElem? hp, rfl, rfl⟩
    rw [hi] at h1
    have := (h1.trans (steps k hk)).append (steps r hr)
    simpa [roots, yield, hp] using this

theorem yield_term : ∀ f : Forest, f.Valid ps → ∀ t ∈ f.yield, IsTerm t
  | nil, _ => by simp [yield]
  | leaf t r, h => by
    intro x hx
    simp only [yield, List.mem_cons] at hx
    rcases hx with rfl | hx
    · exact h.1
    · exact yield_term r h.2 x hx
  | node p k r, h => by
    intro x hx
    simp only [yield, List.mem_append] at hx
    rcases hx with hx | hx
    · exact yield_term k h.2.1 x hx
    · exact yield_term r h.2.2 x hx

/-- Terminals as leaves. -/
def leaves : List Sym → Forest
  | [] => nil
  | t :: w => leaf t (leaves w)

theorem leaves_spec : ∀ w : List Sym, (∀ t ∈ w, IsTerm t) → (leaves w).Valid ps ∧ (leaves w).roots ps = w ∧
    (leaves w).yield = w
  | [], _ => ⟨trivial, rfl, rfl⟩
  | t :: w, h => by
    obtain ⟨h1, h2, h3⟩ := leaves_spec w fun t ht => h t (by simp [ht])
    exact ⟨⟨h t (by simp), h1⟩, by simp [leaves, roots, h2], by simp [leaves, yield, h3]⟩

/-- A derivation of terminals gives a forest. -/
theorem of_steps {α w : List Sym} (h : Steps (Rule ps) α w) (hw : ∀ t ∈ w, IsTerm t) :
    ∃ f : Forest, f.Valid ps ∧ f.roots ps = α ∧ f.yield = w := by
  refine Steps.headInd (P := fun α => ∃ f : Forest, f.Valid ps ∧ f.roots ps = α ∧ f.yield = w)
    ⟨leaves w, leaves_spec w hw⟩ ?_ h
  rintro _ _ ⟨hR⟩ _ ⟨f, h1, h2, h3⟩
  obtain ⟨prod, hp, rfl, rfl⟩ := hR
  obtain ⟨i, hi⟩ := List.getElem?_of_mem hp
  rw [List.append_assoc] at h2
  obtain ⟨f1, f', rfl, h4, h5⟩ := split f _ _ h2
  obtain ⟨f2, f3, rfl, h6, h7⟩ := split f' _ _ h5
  rw [valid_append, valid_append] at h1
  refine ⟨f1.append (node i f2 f3), ?_, ?_, ?_⟩
  · rw [valid_append]
    exact ⟨h1.1, ⟨prod, hi, h6.symm⟩, h1.2.1, h1.2.2⟩
  · simp [roots_append, roots, h4, h7, hi]
  · rw [← h3]; simp [yield_append, yield]

/-- The roots and the postorder of the productions determine a forest. -/
theorem unique : ∀ (f f' : Forest) (pre pre' : List Nat), f.Valid ps → f'.Valid ps → f.roots ps = f'.roots ps →
    pre ++ f.post = pre' ++ f'.post → pre = pre' ∧ f = f'
  | nil, nil, pre, pre', _, _, _, h => ⟨by simpa [post] using h, rfl⟩
  | nil, leaf _ _, _, _, _, _, hr, _ => by simp [roots] at hr
  | nil, node _ _ _, _, _, _, _, hr, _ => by simp [roots] at hr
  | leaf _ _, nil, _, _, _, _, hr, _ => by simp [roots] at hr
  | node _ _ _, nil, _, _, _, _, hr, _ => by simp [roots] at hr
  | leaf t r, leaf t' r', pre, pre', hv, hv', hr, h => by
    simp only [roots, List.cons.injEq] at hr
    obtain ⟨h1, h2⟩ := unique r r' pre pre' hv.2 hv'.2 hr.2 (by simpa [post] using h)
    exact ⟨h1, by rw [hr.1, h2]⟩
  | leaf t r, node p k r', _, _, hv, _, hr, _ => by
    simp only [roots, List.cons.injEq] at hr
    have := hv.1
    rw [hr.1] at this
    exact this.elim
  | node p k r, leaf t r', _, _, _, hv', hr, _ => by
    simp only [roots, List.cons.injEq] at hr
    have := hv'.1
    rw [← hr.1] at this
    exact this.elim
  | node p k r, node p' k' r', pre, pre', hv, hv', hr, h => by
    simp only [roots, List.cons.injEq] at hr
    have h' : (pre ++ k.post ++ [p]) ++ r.post = (pre' ++ k'.post ++ [p']) ++ r'.post := by
      simpa [post] using h
    obtain ⟨h1, h2⟩ := unique r r' _ _ hv.2.2 hv'.2.2 hr.2 h'
    obtain ⟨h3, h4⟩ := List.append_inj' h1 rfl
    simp only [List.cons.injEq, and_true] at h4
    subst h4
    obtain ⟨prod, hp, hi⟩ := hv.1
    obtain ⟨prod', hp', hi'⟩ := hv'.1
    rw [hp] at hp'; cases hp'
    obtain ⟨h5, h6⟩ := unique k k' pre pre' hv.2.1 hv'.2.1 (hi.symm.trans hi') h3
    exact ⟨h5, by rw [h6, h2]⟩

end Forest
end Spec

namespace Grammar
variable {g : Grammar}

/-- Symbols of bodies that are no nonterminals are terminals. -/
theorem GOk.isTerm (h : GOk g) {p : Production} (hp : p ∈ g.prods) {x : Sym} (hx : x ∈ p.inputs)
    (hn : ∀ A, x ≠ .nonTerm A) : IsTerm x := by
  cases x with
  | strLit _ => trivial
  | regex _ => trivial
  | nonTerm A => exact absurd rfl (hn A)
  | epsilon => exact absurd hx (h.noEps p hp)
  | eof => exact absurd hx (h.noEof p hp)

theorem isTerm_ne {x : Sym} (h : IsTerm x) : (∀ A, x ≠ .nonTerm A) ∧ x ≠ .eof := by
  cases x <;> simp_all [IsTerm]

end Grammar
end Verif
