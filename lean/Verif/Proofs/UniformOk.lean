import Verif.Proofs.ParseOk
import Verif.Spec.Uniform

/-! # Lemmas about uniform grammars (for `Verif.Props.Uniform`) -/

namespace Verif
open Verif.Spec

section
variable {R : Str → List Sym → Prop} {S : Str}

theorem steps_eof {α γ : List Sym} (h : Steps R α γ) (h0 : α = [.eof]) : γ = [.eof] := by
  induction h with
  | refl => exact h0
  | tail _ hst ih =>
    have := ih
    cases hst with
    | @mk l r A rhs _ =>
      cases l <;> simp at this

theorem starts_eof {b : Sym} (h : Starts R [.eof] b) : b = .eof := by
  obtain ⟨_, β, hβ⟩ := h
  have := steps_eof hβ rfl
  simp only [List.cons.injEq] at this
  exact this.1

theorem starts_eof_self : Starts R [.eof] .eof := ⟨(fun _ h => nomatch h), [], .refl⟩

theorem Spec.RightLinear.followed (h : RightLinear R) {A : Str} {t : Sym} (ha : Followed R S A t) : t = .eof := by
  induction ha with
  | start => rfl
  | step hR _ hs ih =>
    subst ih
    rw [h _ _ _ _ hR] at hs
    exact starts_eof hs

theorem Spec.RightLinear.uniform (h : RightLinear R) : Uniform R S where
  start b hb := h.followed hb
  place A α B β hR ha b hb := by
    obtain ⟨t, ht⟩ := ha
    refine ⟨t, ht, ?_⟩
    rw [h _ _ _ _ hR, h.followed ht, h.followed hb]
    exact starts_eof_self

theorem Spec.Once.uniform (h : Once R S) : Uniform R S where
  start b hb := by
    cases hb with
    | start => rfl
    | step hR _ _ => exact absurd hR (h.1 _ _ _)
  place A α B β hR ha b hb := by
    cases hb with
    | start => exact absurd hR (h.1 _ _ _)
    | step hR' ha' hs =>
      obtain ⟨rfl, rfl⟩ := h.2 _ _ _ _ _ _ _ hR hR'
      exact ⟨_, ha', hs⟩

theorem steps_mem {α γ : List Sym} (h : Steps R α γ) : ∀ x ∈ γ, x ∈ α ∨ ∃ A r, R A r ∧ x ∈ r := by
  induction h with
  | refl => exact fun x hx => .inl hx
  | tail _ hst ih =>
    cases hst with
    | @mk l r A rhs hR =>
      intro x hx
      simp only [List.mem_append] at hx
      rcases hx with (hx | hx) | hx
      · exact ih x (by simp [hx])
      · exact .inr ⟨A, rhs, hR, hx⟩
      · exact ih x (by simp [hx])

theorem followed_mem {A : Str} {t : Sym} (h : Followed R S A t) : t = .eof ∨ ∃ B r, R B r ∧ t ∈ r := by
  induction h with
  | start => exact .inl rfl
  | step hR _ hs ih =>
    obtain ⟨_, β, hβ⟩ := hs
    rcases steps_mem hβ _ List.mem_cons_self with h | h
    · rcases List.mem_append.1 h with h | h
      · exact .inr ⟨_, _, hR, by simp [h]⟩
      · rw [List.mem_singleton] at h; subst h; exact ih
    · exact .inr h
end

section
variable {ps : List Ast.Prod} {start : Ast.Prod} {g : Grammar}

theorem starts_ast (hok : Grammar.GOk g) (hg : Grammar.fromAst ps = .ok g) (hs : ps.find? (fun p => p.isStart) = some start) {α : List Sym}
    (hα : Sym.nonTerm g.augName ∉ α) {b : Sym} : Starts (Rule g.prods) α b ↔ Starts (AstRule ps) α b := by
  refine and_congr_right fun _ => exists_congr fun β => ⟨fun h => (Grammar.steps_ast hok hg hs hα h).1, fun h => ?_⟩
  exact h.mono fun A r hR => (Grammar.rule_iff hg hs).mpr (.inr hR)

/-- What can follow the left side of a production. -/
def Behind (ps : List Ast.Prod) (start : Ast.Prod) (g : Grammar) (A : Str) (t : Sym) : Prop :=
  (A = g.augName ∧ t = .eof) ∨ (A ≠ g.augName ∧ Followed (AstRule ps) start.name A t)

/-- Every item has all lookaheads that can follow its left side, and no other. -/
def Full (ps : List Ast.Prod) (start : Ast.Prod) (g : Grammar) (I : Item → Nat → Prop) : Prop :=
  ∀ it la, I it la → ∃ p t, g.prods[it.1]? = some p ∧ g.tokens[la]? = some t ∧ Behind ps start g p.name t ∧
    ∀ t' la', Behind ps start g p.name t' → g.tokens[la']? = some t' → I it la'

theorem tokens_inj (hok : Grammar.GOk g) {i j : Nat} {t : Sym} (hi : g.tokens[i]? = some t) (hj : g.tokens[j]? = some t) : i = j := by
  obtain ⟨h1, h2⟩ := List.getElem?_eq_some_iff.1 hi
  obtain ⟨h3, h4⟩ := List.getElem?_eq_some_iff.1 hj
  exact (hok.tokNodup.getElem_inj_iff).1 (h2.trans h4.symm)

theorem full_init (hok : Grammar.GOk g) (hg : Grammar.fromAst ps = .ok g) (hs : ps.find? (fun p => p.isStart) = some start) :
    Full ps start g fun it la => it = (0, 0) ∧ la = 0 := by
  rintro it la ⟨rfl, rfl⟩
  refine ⟨_, .eof, Grammar.start_prod hg hs, hok.tok0, .inl ⟨rfl, rfl⟩, ?_⟩
  rintro t' la' (⟨_, rfl⟩ | ⟨h, _⟩) ht
  · exact ⟨rfl, tokens_inj hok ht hok.tok0⟩
  · exact absurd rfl h

theorem Full.adv {I : Item → Nat → Prop} (h : Full ps start g I) (X : Sym) : Full ps start g (Advanced g I X) := by
  rintro ⟨i, d'⟩ la ⟨d, p, hd, hI, hp, hX⟩
  obtain ⟨p', t, h1, h2, h3, h4⟩ := h _ _ hI
  exact ⟨p', t, h1, h2, h3, fun t' la' k1 k2 => ⟨d, p, hd, h4 t' la' k1 k2, hp, hX⟩⟩

theorem Full.clo (hok : Grammar.GOk g) (hg : Grammar.fromAst ps = .ok g) (hs : ps.find? (fun p => p.isStart) = some start)
    (hu : Uniform (AstRule ps) start.name) {I : Item → Nat → Prop} (h : Full ps start g I) : Full ps start g (Clo g I) := by
  intro it la hc
  induction hc with
  | base hI =>
    obtain ⟨p, t, h1, h2, h3, h4⟩ := h _ _ hI
    exact ⟨p, t, h1, h2, h3, fun t' la' k1 k2 => .base (h4 t' la' k1 k2)⟩
  | @step it la q b hc ha ih =>
    obtain ⟨p, t, h1, h2, h3, h4⟩ := ih
    have hask := ha
    obtain ⟨p0, B, p', t0, tb, a1, a2, a3, a4, a5, a6, a7⟩ := ha
    rw [h1] at a1; cases a1
    rw [h2] at a5; cases a5
    have hmem := List.mem_of_getElem? h1
    have hBne : B ≠ g.augName := by
      rintro rfl
      exact hok.fresh p hmem (List.mem_of_getElem? a2)
    have hsplit : p.inputs = p.inputs.take it.2 ++ .nonTerm B :: p.inputs.drop (it.2 + 1) := by
      obtain ⟨k1, k2⟩ := List.getElem?_eq_some_iff.1 a2
      conv => lhs; rw [← List.take_append_drop it.2 p.inputs, List.drop_eq_getElem_cons k1, k2]
    have hnot : ∀ {x}, x ≠ Sym.nonTerm g.augName → Sym.nonTerm g.augName ∉ p.inputs.drop (it.2 + 1) ++ [x] := by
      intro x hx hm
      rcases List.mem_append.1 hm with hm | hm
      · exact hok.fresh p hmem (List.mem_of_mem_drop hm)
      · exact hx (List.mem_singleton.1 hm).symm
    have htok : ∀ {i : Nat} {x}, g.tokens[i]? = some x → x ≠ Sym.nonTerm g.augName := by
      rintro i x hx rfl
      rcases (hok.tokMem _).1 (List.mem_of_getElem? hx) with h | ⟨r, hr, h⟩
      · cases h
      · exact hok.fresh r hr h
    refine ⟨p', tb, a3, a7, ?_⟩
    rw [a4]
    rcases h3 with ⟨e1, rfl⟩ | ⟨e1, e2⟩
    · have hi0 := hok.aug _ _ h1 e1
      have hp0 := Grammar.start_prod hg hs
      rw [hi0, hp0] at h1; cases h1
      have hd : it.2 = 0 := by
        have := (List.getElem?_eq_some_iff.1 a2).1
        simpa using this
      rw [hd] at a2 a6
      simp only [List.getElem?_cons_zero, Option.some.injEq, Sym.nonTerm.injEq] at a2
      subst a2
      have htb : tb = .eof := starts_eof a6
      subst htb
      refine ⟨.inr ⟨hBne, .start⟩, ?_⟩
      rintro t' la' (⟨k, _⟩ | ⟨_, k⟩) ht'
      · exact absurd k hBne
      · rw [hu.start _ k] at ht'
        rw [tokens_inj hok ht' a7]
        exact .step hc hask
    · have hR : AstRule ps p.name (p.inputs.take it.2 ++ .nonTerm B :: p.inputs.drop (it.2 + 1)) := by
        rw [← hsplit]
        rcases (Grammar.rule_iff hg hs).1 ⟨p, hmem, rfl, rfl⟩ with ⟨k, _⟩ | k
        · exact absurd k e1
        · exact k
      refine ⟨.inr ⟨hBne, .step hR e2 ((starts_ast hok hg hs (hnot (htok h2))).1 a6)⟩, ?_⟩
      rintro t' la' (⟨k, _⟩ | ⟨_, k⟩) ht'
      · exact absurd k hBne
      · obtain ⟨t0, m1, m2⟩ := hu.place _ _ _ _ hR ⟨t, e2⟩ _ k
        have ht0 : t0 ∈ g.tokens := by
          rw [hok.tokMem]
          rcases followed_mem m1 with h | ⟨C, r, hr, hm⟩
          · exact .inl h
          · obtain ⟨pr, k1, -, rfl⟩ := (Grammar.rule_iff hg hs).2 (.inr hr)
            exact .inr ⟨pr, k1, hm⟩
        obtain ⟨la0, hla0⟩ := List.getElem?_of_mem ht0
        exact .step (h4 t0 la0 (.inr ⟨e1, m1⟩) hla0)
          ⟨p, B, p', t0, t', h1, a2, a3, a4, hla0, (starts_ast hok hg hs (hnot (htok hla0))).2 m2, ht'⟩

theorem Full.of_reach (hok : Grammar.GOk g) (hg : Grammar.fromAst ps = .ok g) (hs : ps.find? (fun p => p.isStart) = some start)
    (hu : Uniform (AstRule ps) start.name) {I : Item → Nat → Prop} (h : Reach g I) : Full ps start g I := by
  induction h with
  | init => exact (full_init hok hg hs).clo hok hg hs hu
  | goto _ _ ih => exact (ih.adv _).clo hok hg hs hu

theorem Full.le {I J : Item → Nat → Prop} (hI : Full ps start g I) (hJ : Full ps start g J) (hc : SameCore I J) {it : Item} {la : Nat}
    (h : I it la) : J it la := by
  obtain ⟨p, t, h1, h2, h3, _⟩ := hI _ _ h
  obtain ⟨la', h'⟩ := (hc it).1 ⟨la, h⟩
  obtain ⟨p', t', k1, k2, k3, k4⟩ := hJ _ _ h'
  rw [h1] at k1; cases k1
  exact k4 t la h3 h2

end
end Verif
