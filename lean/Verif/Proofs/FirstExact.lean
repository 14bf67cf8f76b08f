import Verif.Proofs.FirstEps

/-! What `first` computes for every grammar. -/

namespace Verif
open Spec

namespace Grammar
variable {g : Grammar} {R : Str → List Sym → Prop} {rec : List Sym → Sym → Res (List Sym × Bool)}

/-- What a call that adds to a set has done: `F` are the symbols to add, `E` says whether ε is one. -/
structure Adds (F : Sym → Prop) (E : Prop) (set set' : List Sym) (b0 b : Bool) : Prop where
  mem : ∀ t, t ∈ set' ↔ t ∈ set ∨ F t ∨ (t = .epsilon ∧ E)
  flag : b = true ↔ b0 = true ∨ E

theorem firstInputs_adds (hrec : ∀ set X set' b, rec set X = .ok (set', b) → Adds (Fst R X) (Nul R X) set set' false b) :
    ∀ (ss set : List Sym) (b0 : Bool) (set' : List Sym) (b : Bool), firstInputs rec ss set b0 = .ok (set', b) →
      Adds (SFst R ss) (∃ X r, ss = X :: r ∧ Nul R X) set set' b0 b
  | [], set, b0, set', b, h => by
    simp only [firstInputs, Except.ok.injEq, Prod.mk.injEq] at h
    obtain ⟨rfl, rfl⟩ := h
    exact ⟨fun t => by simp [not_sfst_nil], by simp⟩
  | X :: ss, set, b0, set', b, h => by
    simp only [firstInputs, bind, Except.bind] at h
    cases hr : rec set X with
    | error e => simp [hr] at h
    | ok p =>
      obtain ⟨mid, he⟩ := p
      have A := hrec _ _ _ _ hr
      simp only [hr] at h
      have hE : (∃ Y r, X :: ss = Y :: r ∧ Nul R Y) ↔ Nul R X := by
        constructor
        · rintro ⟨Y, r, e, h⟩; cases e; exact h
        · exact fun h => ⟨X, ss, rfl, h⟩
      cases he with
      | true =>
        simp only [if_true] at h
        have B := firstInputs_adds hrec ss mid true set' b h
        have hX : Nul R X := by simpa using A.flag.mp rfl
        refine ⟨fun t => ?_, ?_⟩
        · rw [B.mem, A.mem, sfst_cons, hE]
          tauto
        · rw [B.flag, hE]; tauto
      | false =>
        simp only [Bool.false_eq_true, if_false, pure, Except.pure, Except.ok.injEq, Prod.mk.injEq] at h
        obtain ⟨rfl, rfl⟩ := h
        have hX : ¬ Nul R X := fun h => by simpa using A.flag.mpr (.inr h)
        refine ⟨fun t => ?_, ?_⟩
        · rw [A.mem, sfst_cons, hE]; tauto
        · rw [hE]; tauto

theorem firstProds_adds (hrec : ∀ set X set' b, rec set X = .ok (set', b) → Adds (Fst R X) (Nul R X) set set' false b) :
    ∀ (ps : List Nat) (set : List Sym) (b0 : Bool) (set' : List Sym) (b : Bool), firstProds g rec ps set b0 = .ok (set', b) →
      Adds (fun t => ∃ p ∈ ps, SFst R (g.prodAt p).inputs t)
        (∃ p ∈ ps, ∃ X r, (g.prodAt p).inputs = X :: r ∧ Nul R X) set set' b0 b
  | [], set, b0, set', b, h => by
    simp only [firstProds, Except.ok.injEq, Prod.mk.injEq] at h
    obtain ⟨rfl, rfl⟩ := h
    exact ⟨fun t => by simp, by simp⟩
  | p :: ps, set, b0, set', b, h => by
    simp only [firstProds, bind, Except.bind] at h
    cases hr : firstInputs rec (g.prodAt p).inputs set b0 with
    | error e => simp [hr] at h
    | ok q =>
      obtain ⟨mid, bm⟩ := q
      simp only [hr] at h
      have A := firstInputs_adds hrec _ _ _ _ _ hr
      have B := firstProds_adds hrec ps mid bm set' b h
      have hc : ∀ P : Nat → Prop, (∃ q ∈ p :: ps, P q) ↔ P p ∨ ∃ q ∈ ps, P q := fun P => by simp
      refine ⟨fun t => ?_, ?_⟩
      · rw [B.mem, A.mem, hc, hc]
        generalize (∃ X r, (g.prodAt p).inputs = X :: r ∧ Nul R X) = E1
        generalize (∃ q ∈ ps, ∃ X r, (g.prodAt q).inputs = X :: r ∧ Nul R X) = E2
        generalize (∃ q ∈ ps, SFst R (g.prodAt q).inputs t) = F2
        tauto
      · rw [B.flag, A.flag, hc, or_assoc]

/-- The numbers of the productions of a nonterminal are those of its rules. -/
theorem iter_rules {ps : List Ast.Prod} (hg : fromAst ps = .ok g) {A : Str} {l : List Nat} (hi : g.productionIter A = .ok l)
    (rhs : List Sym) : Rule g.prods A rhs ↔ ∃ p ∈ l, (g.prodAt p).inputs = rhs := by
  cases hf : ps.find? (fun p => p.isStart) with
  | none => simp [fromAst, hf] at hg
  | some start =>
    obtain ⟨g', h1, _, h3, h4, _⟩ := fromAst_spec hf
    rw [hg] at h1; cases h1
    unfold productionIter at hi
    cases hm : mget A g.nameMap with
    | none => simp [hm] at hi
    | some l' =>
      simp only [hm, Except.ok.injEq] at hi
      subst hi
      obtain ⟨_, _, k⟩ := (h3.2 A).1 _ hm
      constructor
      · rintro ⟨p, hp, hn, rfl⟩
        obtain ⟨i, hi⟩ := List.getElem?_of_mem hp
        exact ⟨i, (k i).mpr ⟨p, hi, hn⟩, by simp [prodAt, List.getD, hi]⟩
      · rintro ⟨i, hi, rfl⟩
        obtain ⟨p, hp, hn⟩ := (k i).mp hi
        refine ⟨p, List.mem_of_getElem? hp, hn, ?_⟩
        simp [prodAt, List.getD, hp]

theorem firstOfSymbol_adds {ps : List Ast.Prod} (hg : fromAst ps = .ok g) :
    ∀ (depth : Nat) (set : List Sym) (X : Sym) (set' : List Sym) (b : Bool), firstOfSymbol g depth set X = .ok (set', b) →
      Adds (Fst (Headed (Rule g.prods)) X) (Nul (Headed (Rule g.prods)) X) set set' false b
  | 0, set, X, set', b, h => by simp [firstOfSymbol] at h
  | depth + 1, set, X, set', b, h => by
    have term : (∀ A, X ≠ .nonTerm A) → firstOfSymbol g (depth + 1) set X = .ok (oinsert X set, decide (X = .epsilon)) := by
      intro hX
      cases X <;> simp [firstOfSymbol, Sym.asNonTerminal] at hX ⊢
    by_cases hX : ∀ A, X ≠ .nonTerm A
    · rw [term hX] at h
      simp only [Except.ok.injEq, Prod.mk.injEq] at h
      obtain ⟨rfl, rfl⟩ := h
      have hF : ∀ t, Fst (Headed (Rule g.prods)) X t ↔ t = X ∧ t ≠ .epsilon := by
        intro t
        constructor
        · intro ht
          cases ht with
          | term h1 => exact ⟨rfl, h1⟩
          | nt => exact absurd rfl (hX _)
        · rintro ⟨rfl, h1⟩; exact .term h1 hX
      have hN : Nul (Headed (Rule g.prods)) X ↔ X = .epsilon := by
        constructor
        · intro h
          cases h with
          | eps => rfl
          | nt => exact absurd rfl (hX _)
        · rintro rfl; exact .eps
      refine ⟨fun t => ?_, by simp [hN]⟩
      rw [mem_oinsert, hF, hN]
      by_cases he : t = .epsilon
      · subst he
        have : (Sym.epsilon = X) ↔ X = .epsilon := eq_comm
        tauto
      · tauto
    · simp only [not_forall, not_not] at hX
      obtain ⟨A, rfl⟩ := hX
      simp only [firstOfSymbol, Sym.asNonTerminal, bind, Except.bind] at h
      cases hi : g.productionIter A with
      | error e => simp [hi] at h
      | ok l =>
        simp only [hi] at h
        have B := firstProds_adds (firstOfSymbol_adds hg depth) l set false set' b h
        have hr := iter_rules hg hi
        have hF : ∀ t, Fst (Headed (Rule g.prods)) (.nonTerm A) t ↔
            ∃ p ∈ l, SFst (Headed (Rule g.prods)) (g.prodAt p).inputs t := by
          intro t
          constructor
          · intro ht
            cases ht with
            | term _ h => exact absurd rfl (h A)
            | @nt _ l' Y r _ h1 h2 h3 =>
              obtain ⟨Z, s, h4, h5⟩ := h1
              obtain ⟨p, hp, he⟩ := (hr _).mp h4
              refine ⟨p, hp, ?_⟩
              rw [he]
              rcases h5 with h5 | h5
              · rw [← h5]; exact ⟨l', Y, r, rfl, h2, h3⟩
              · cases l' with
                | nil => cases h5; exact ⟨[], _, s, rfl, by simp, h3⟩
                | cons a l' => simp at h5
          · rintro ⟨p, hp, l', Y, r, h1, h2, h3⟩
            have h4 := (hr _).mpr ⟨p, hp, h1⟩
            refine .nt (l := l') (X := Y) (r := r) ?_ h2 h3
            cases l' with
            | nil => exact ⟨Y, r, h4, .inl rfl⟩
            | cons a l' => exact ⟨a, l' ++ Y :: r, h4, .inl rfl⟩
        have hN : Nul (Headed (Rule g.prods)) (.nonTerm A) ↔
            ∃ p ∈ l, ∃ X r, (g.prodAt p).inputs = X :: r ∧ Nul (Headed (Rule g.prods)) X := by
          constructor
          · intro hN
            cases hN with
            | @nt _ rhs h1 h2 =>
              obtain ⟨Z, s, h4, h5⟩ := h1
              obtain ⟨p, hp, he⟩ := (hr _).mp h4
              refine ⟨p, hp, Z, s, he, h2 Z ?_⟩
              rcases h5 with rfl | rfl <;> simp
          · rintro ⟨p, hp, X, r, h1, h2⟩
            exact .nt (rhs := [X]) ⟨X, r, (hr _).mpr ⟨p, hp, h1⟩, .inr rfl⟩ (by simpa using h2)
        exact ⟨fun t => by rw [B.mem, hF, hN], by rw [B.flag, hN]⟩

theorem firstLoop_adds {ps : List Ast.Prod} (hg : fromAst ps = .ok g) (depth : Nat) :
    ∀ (ss set set' : List Sym) (b : Bool), Sym.epsilon ∉ set → firstLoop g depth ss set true = .ok (set', b) →
      (∀ t, t ∈ set' ↔ t ∈ set ∨ SFst (Headed (Rule g.prods)) ss t) ∧
      (b = true ↔ ∀ X ∈ ss, Nul (Headed (Rule g.prods)) X)
  | [], set, set', b, he, h => by
    simp only [firstLoop, Except.ok.injEq, Prod.mk.injEq] at h
    obtain ⟨rfl, rfl⟩ := h
    exact ⟨fun t => by simp [not_sfst_nil], by simp⟩
  | X :: ss, set, set', b, he, h => by
    simp only [firstLoop, bind, Except.bind] at h
    cases hr : firstOfSymbol g depth set X with
    | error e => simp [hr] at h
    | ok p =>
      obtain ⟨mid, bm⟩ := p
      have A := firstOfSymbol_adds hg depth _ _ _ _ hr
      simp only [hr] at h
      have hnf : Sym.epsilon ∉ mid.filter (fun x => decide (x ≠ Sym.epsilon)) := by simp
      have hf : ∀ t, t ∈ mid.filter (fun x => decide (x ≠ Sym.epsilon)) ↔ t ∈ set ∨ Fst (Headed (Rule g.prods)) X t := by
        intro t
        simp only [List.mem_filter, decide_eq_true_eq]
        rw [A.mem]
        constructor
        · rintro ⟨h | h | h, h'⟩
          · exact .inl h
          · exact .inr h
          · exact absurd h.1 h'
        · rintro (h | h)
          · exact ⟨.inl h, by rintro rfl; exact he h⟩
          · exact ⟨.inr (.inl h), h.ne.1⟩
      have hm : Sym.epsilon ∈ mid ↔ Nul (Headed (Rule g.prods)) X := by
        rw [A.mem]
        constructor
        · rintro (h | h | h)
          · exact absurd h he
          · exact absurd rfl h.ne.1
          · exact h.2
        · exact fun h => .inr (.inr ⟨rfl, h⟩)
      by_cases hX : Nul (Headed (Rule g.prods)) X
      · simp only [hm.mpr hX, decide_true, if_true] at h
        obtain ⟨k1, k2⟩ := firstLoop_adds hg depth ss _ set' b hnf h
        refine ⟨fun t => ?_, ?_⟩
        · rw [k1, hf, sfst_cons]; tauto
        · rw [k2]; simp [hX]
      · have : Sym.epsilon ∉ mid := fun h => hX (hm.mp h)
        simp only [this, decide_false, Bool.false_eq_true, if_false, pure, Except.pure, Except.ok.injEq, Prod.mk.injEq] at h
        obtain ⟨rfl, rfl⟩ := h
        refine ⟨fun t => ?_, by simp [hX]⟩
        rw [hf, sfst_cons]; tauto

end Grammar
end Verif
