import Verif.Proofs.FirstExact

/-! When `first` returns, for every grammar. -/

namespace Verif
open Spec

namespace Grammar
variable {g : Grammar}

/-- What `first_of_symbol` calls itself on. -/
abbrev Visits (g : Grammar) : Str → List Sym → Prop := Skipped (Headed (Rule g.prods)) (Rule g.prods)

/-- Depth at which `first_of_symbol` returns. -/
def Fits (g : Grammar) : Nat → Sym → Prop
  | 0, _ => False
  | d + 1, X => ∀ A, X = .nonTerm A → (∃ p ∈ g.prods, p.name = A) ∧
      ∀ Y rhs, Visits g A (Y :: rhs) → Fits g d Y

theorem fits_mono : ∀ {d d' : Nat} {X : Sym}, Fits g d X → d ≤ d' → Fits g d' X
  | 0, _, _, h, _ => h.elim
  | d + 1, 0, _, _, hl => by omega
  | d + 1, d' + 1, X, h, hl => fun A hA =>
    ⟨(h A hA).1, fun Y rhs hR => fits_mono ((h A hA).2 Y rhs hR) (by omega)⟩

/-- The errors of `first_of_symbol`: the stack, or an undefined nonterminal that is reached. -/
def Fails (g : Grammar) (X : Sym) (e : Err) : Prop :=
  e = .stackOverflow ∨ e = .undefinedNonTerminal ∧
    ∃ A B, X = .nonTerm A ∧ LeftReach (Visits g) A B ∧ ∀ p ∈ g.prods, p.name ≠ B

theorem firstInputs_fits {R : Str → List Sym → Prop} {rec : List Sym → Sym → Res (List Sym × Bool)}
    (hrec : ∀ set X set' b, rec set X = .ok (set', b) → Adds (Fst R X) (Nul R X) set set' false b)
    {P : Sym → Prop} (hP : ∀ set X, (∃ r, rec set X = .ok r) ↔ P X) :
    ∀ (ss set : List Sym) (b0 : Bool), ((∃ r, firstInputs rec ss set b0 = .ok r) ↔
      ∀ l Y r, ss = l ++ Y :: r → (∀ X ∈ l, Nul R X) → P Y) ∧
      ∀ e, firstInputs rec ss set b0 = .error e → ∃ l Y r s, ss = l ++ Y :: r ∧ (∀ X ∈ l, Nul R X) ∧ rec s Y = .error e
  | [], set, b0 => by simp [firstInputs]
  | X :: ss, set, b0 => by
    simp only [firstInputs, bind, Except.bind]
    cases hr : rec set X with
    | error e =>
      have hX : ¬ P X := fun h => by obtain ⟨r, h⟩ := (hP set X).mpr h; rw [hr] at h; cases h
      refine ⟨⟨by simp, fun h => absurd (h [] X ss rfl (by simp)) hX⟩, fun e' h => ?_⟩
      exact ⟨[], X, ss, set, rfl, by simp, by rw [hr]; exact h⟩
    | ok p =>
      obtain ⟨mid, he⟩ := p
      have A := hrec _ _ _ _ hr
      have hX : P X := (hP set X).mp ⟨_, hr⟩
      cases he with
      | true =>
        simp only [if_true]
        have hN : Nul R X := by simpa using A.flag.mp rfl
        obtain ⟨h1, h2⟩ := firstInputs_fits hrec hP ss mid true
        refine ⟨h1.trans ⟨fun h l Y r e hl => ?_, fun h l Y r e hl => ?_⟩, fun e h => ?_⟩
        · cases l with
          | nil => cases e; exact hX
          | cons Z l => cases e; exact h l Y r rfl fun y hy => hl y (by simp [hy])
        · refine h (X :: l) Y r (by rw [e]; rfl) fun y hy => ?_
          rcases List.mem_cons.mp hy with rfl | hy
          · exact hN
          · exact hl y hy
        · obtain ⟨l, Y, r, s, h3, h4, h5⟩ := h2 e h
          refine ⟨X :: l, Y, r, s, by rw [h3]; rfl, fun y hy => ?_, h5⟩
          rcases List.mem_cons.mp hy with rfl | hy
          · exact hN
          · exact h4 y hy
      | false =>
        simp only [Bool.false_eq_true, if_false, pure, Except.pure]
        have hN : ¬ Nul R X := fun h => by simpa using A.flag.mpr (.inr h)
        refine ⟨⟨fun _ l Y r e hl => ?_, fun _ => ⟨_, rfl⟩⟩, by simp⟩
        cases l with
        | nil => cases e; exact hX
        | cons Z l => cases e; exact absurd (hl _ (by simp)) hN

theorem firstProds_fits {R : Str → List Sym → Prop} {rec : List Sym → Sym → Res (List Sym × Bool)}
    (hrec : ∀ set X set' b, rec set X = .ok (set', b) → Adds (Fst R X) (Nul R X) set set' false b)
    {P : Sym → Prop} (hP : ∀ set X, (∃ r, rec set X = .ok r) ↔ P X) :
    ∀ (ps : List Nat) (set : List Sym) (b0 : Bool), ((∃ r, firstProds g rec ps set b0 = .ok r) ↔
      ∀ p ∈ ps, ∀ l Y r, (g.prodAt p).inputs = l ++ Y :: r → (∀ X ∈ l, Nul R X) → P Y) ∧
      ∀ e, firstProds g rec ps set b0 = .error e →
        ∃ p ∈ ps, ∃ l Y r s, (g.prodAt p).inputs = l ++ Y :: r ∧ (∀ X ∈ l, Nul R X) ∧ rec s Y = .error e
  | [], set, b0 => by simp [firstProds]
  | p :: ps, set, b0 => by
    simp only [firstProds, bind, Except.bind]
    obtain ⟨h1, h2⟩ := firstInputs_fits hrec hP (g.prodAt p).inputs set b0
    cases hr : firstInputs rec (g.prodAt p).inputs set b0 with
    | error e =>
      rw [hr] at h1 h2
      refine ⟨⟨by simp, fun h => ?_⟩, fun e' h => ⟨p, by simp, h2 e' h⟩⟩
      obtain ⟨r, h3⟩ := h1.mpr (h p (by simp))
      cases h3
    | ok q =>
      rw [hr] at h1
      obtain ⟨h3, h4⟩ := firstProds_fits hrec hP ps q.1 q.2
      refine ⟨h3.trans ⟨fun h q' hq' => ?_, fun h q' hq' => h q' (by simp [hq'])⟩, fun e h => ?_⟩
      · rcases List.mem_cons.mp hq' with rfl | hq'
        · exact h1.mp ⟨_, rfl⟩
        · exact h q' hq'
      · obtain ⟨q', hq', h5⟩ := h4 e h
        exact ⟨q', by simp [hq'], h5⟩

/-- Which nonterminals have productions. -/
theorem iter_defined {ps : List Ast.Prod} (hg : fromAst ps = .ok g) (A : Str) :
    ((∃ l, g.productionIter A = .ok l) ↔ ∃ p ∈ g.prods, p.name = A) ∧
    ∀ e, g.productionIter A = .error e → e = .undefinedNonTerminal ∧ ∀ p ∈ g.prods, p.name ≠ A := by
  obtain ⟨start, hf⟩ := fromAst_ok hg
  obtain ⟨g', h1, _, h3, h4, _⟩ := fromAst_spec hf
  rw [hg] at h1; cases h1
  unfold productionIter
  cases hm : mget A g.nameMap with
  | none =>
    have := (h3.2 A).2 hm
    refine ⟨by simpa using this, fun e h => ⟨by simpa using h.symm, this⟩⟩
  | some l =>
    obtain ⟨hne, _, k⟩ := (h3.2 A).1 _ hm
    refine ⟨⟨fun _ => ?_, fun _ => ⟨l, rfl⟩⟩, by simp⟩
    cases l with
    | nil => exact absurd rfl hne
    | cons i l =>
      obtain ⟨p, hp, hn⟩ := (k i).mp (by simp)
      exact ⟨p, List.mem_of_getElem? hp, hn⟩

theorem nullable_singles {R : Str → List Sym → Prop} {l : List Sym} : (∀ X ∈ l, Nul R X) ↔ Nullable R l := nullable_iff.symm

theorem firstOfSymbol_fits {ps : List Ast.Prod} (hg : fromAst ps = .ok g) :
    ∀ (depth : Nat) (set : List Sym) (X : Sym), ((∃ r, firstOfSymbol g depth set X = .ok r) ↔ Fits g depth X) ∧
      ∀ e, firstOfSymbol g depth set X = .error e → Fails g X e
  | 0, set, X => by
    refine ⟨by simp [firstOfSymbol, Fits], fun e h => .inl ?_⟩
    simpa [firstOfSymbol] using h.symm
  | depth + 1, set, X => by
    cases hX : X.asNonTerminal with
    | none =>
      have := asNonTerminal_none hX
      simp only [firstOfSymbol, hX]
      exact ⟨⟨fun _ A hA => absurd hA (this A), fun _ => ⟨_, rfl⟩⟩, by simp⟩
    | some A =>
      have := asNonTerminal_some hX
      subst this
      simp only [firstOfSymbol, hX, bind, Except.bind]
      obtain ⟨d1, d2⟩ := iter_defined hg A
      cases hi : g.productionIter A with
      | error e =>
        obtain ⟨h1, h2⟩ := d2 e hi
        refine ⟨⟨by simp, fun h => ?_⟩, fun e' h => ?_⟩
        · obtain ⟨p, hp, hn⟩ := (h A rfl).1
          exact absurd hn (h2 p hp)
        · cases h
          exact .inr ⟨h1, A, A, rfl, .refl, h2⟩
      | ok l =>
        have hr := iter_rules hg hi
        have hv : ∀ Y r, Visits g A (Y :: r) ↔
            ∃ p ∈ l, ∃ l', (g.prodAt p).inputs = l' ++ Y :: r ∧ ∀ X ∈ l', Nul (Headed (Rule g.prods)) X := by
          intro Y r
          constructor
          · rintro ⟨l', h1, h2⟩
            obtain ⟨p, hp, he⟩ := (hr _).mp h1
            exact ⟨p, hp, l', he, nullable_singles.mpr h2⟩
          · rintro ⟨p, hp, l', he, h2⟩
            exact ⟨l', (hr _).mpr ⟨p, hp, he⟩, nullable_singles.mp h2⟩
        obtain ⟨h1, h2⟩ := firstProds_fits (g := g) (P := Fits g depth) (firstOfSymbol_adds hg depth)
          (fun set X => (firstOfSymbol_fits hg depth set X).1) l set false
        refine ⟨h1.trans ⟨fun h B hB => ?_, fun h p hp l' Y r he hl => ?_⟩, fun e h => ?_⟩
        · cases hB
          refine ⟨d1.mp ⟨l, hi⟩, fun Y r hV => ?_⟩
          obtain ⟨p, hp, l', he, hl⟩ := (hv Y r).mp hV
          exact h p hp l' Y r he hl
        · exact (h A rfl).2 Y r ((hv Y r).mpr ⟨p, hp, l', he, hl⟩)
        · obtain ⟨p, hp, l', Y, r, s, he, hl, h3⟩ := h2 e h
          rcases (firstOfSymbol_fits hg depth s Y).2 e h3 with h4 | ⟨h4, B, C, rfl, h5, h6⟩
          · exact .inl h4
          · exact .inr ⟨h4, A, C, rfl, .head ⟨r, (hv _ _).mpr ⟨p, hp, l', he, hl⟩⟩ h5, h6⟩

theorem firstLoop_fits {ps : List Ast.Prod} (hg : fromAst ps = .ok g) (depth : Nat) :
    ∀ (ss set : List Sym), Sym.epsilon ∉ set → ((∃ r, firstLoop g depth ss set true = .ok r) ↔
      ∀ l X r, ss = l ++ X :: r → (∀ Y ∈ l, Nul (Headed (Rule g.prods)) Y) → Fits g depth X) ∧
      ∀ e, firstLoop g depth ss set true = .error e →
        ∃ l X r, ss = l ++ X :: r ∧ (∀ Y ∈ l, Nul (Headed (Rule g.prods)) Y) ∧ Fails g X e
  | [], set, _ => by simp [firstLoop]
  | X :: ss, set, he => by
    simp only [firstLoop, bind, Except.bind]
    obtain ⟨h1, h2⟩ := firstOfSymbol_fits hg depth set X
    cases hr : firstOfSymbol g depth set X with
    | error e =>
      rw [hr] at h1 h2
      refine ⟨⟨by simp, fun h => ?_⟩, fun e' h => ⟨[], X, ss, rfl, by simp, h2 e' h⟩⟩
      obtain ⟨r, h3⟩ := h1.mpr (h [] X ss rfl (by simp))
      cases h3
    | ok p =>
      obtain ⟨mid, bm⟩ := p
      rw [hr] at h1
      have hX := h1.mp ⟨_, rfl⟩
      have A := firstOfSymbol_adds hg depth _ _ _ _ hr
      have hnf : Sym.epsilon ∉ mid.filter (fun x => decide (x ≠ Sym.epsilon)) := by simp
      have hm : Sym.epsilon ∈ mid ↔ Nul (Headed (Rule g.prods)) X := by
        rw [A.mem]
        constructor
        · rintro (h | h | h)
          · exact absurd h he
          · exact absurd rfl h.ne.1
          · exact h.2
        · exact fun h => .inr (.inr ⟨rfl, h⟩)
      by_cases hN : Nul (Headed (Rule g.prods)) X
      · simp only [hm.mpr hN, decide_true, if_true]
        obtain ⟨h3, h4⟩ := firstLoop_fits hg depth ss _ hnf
        refine ⟨h3.trans ⟨fun h l Y r e hl => ?_, fun h l Y r e hl => ?_⟩, fun e h => ?_⟩
        · cases l with
          | nil => cases e; exact hX
          | cons Z l => cases e; exact h l Y r rfl fun y hy => hl y (by simp [hy])
        · refine h (X :: l) Y r (by rw [e]; rfl) fun y hy => ?_
          rcases List.mem_cons.mp hy with rfl | hy
          · exact hN
          · exact hl y hy
        · obtain ⟨l, Y, r, h5, h6, h7⟩ := h4 e h
          refine ⟨X :: l, Y, r, by rw [h5]; rfl, fun y hy => ?_, h7⟩
          rcases List.mem_cons.mp hy with rfl | hy
          · exact hN
          · exact h6 y hy
      · have : Sym.epsilon ∉ mid := fun h => hN (hm.mp h)
        simp only [this, decide_false, Bool.false_eq_true, if_false, pure, Except.pure]
        refine ⟨⟨fun _ l Y r e hl => ?_, fun _ => ⟨_, rfl⟩⟩, by simp⟩
        cases l with
        | nil => cases e; exact hX
        | cons Z l => cases e; exact absurd (hl _ (by simp)) hN

theorem fits_call {d : Nat} {A B : Str} (h : Fits g d (.nonTerm A)) (hc : LeftCall (Visits g) A B) :
    ∃ d', d' < d ∧ Fits g d' (.nonTerm B) := by
  cases d with
  | zero => exact h.elim
  | succ d =>
    obtain ⟨rhs, hR⟩ := hc
    exact ⟨d, by omega, (h A rfl).2 _ _ hR⟩

theorem fits_reach {d : Nat} {A B : Str} (h : Fits g d (.nonTerm A)) (hr : LeftReach (Visits g) A B) :
    ∃ d', d' ≤ d ∧ Fits g d' (.nonTerm B) := by
  induction hr with
  | refl => exact ⟨d, Nat.le_refl d, h⟩
  | tail _ hc ih =>
    obtain ⟨d', h1, h2⟩ := ih
    obtain ⟨d'', h3, h4⟩ := fits_call h2 hc
    exact ⟨d'', by omega, h4⟩

theorem fits_not_rec : ∀ (d : Nat) {A : Str}, Fits g d (.nonTerm A) → ¬ LeftRec (Visits g) A := by
  intro d
  induction d using Nat.strongRecOn with
  | _ d ih =>
    rintro A h ⟨B, hc, hr⟩
    obtain ⟨d', h1, h2⟩ := fits_call h hc
    obtain ⟨d'', h3, h4⟩ := fits_reach h2 hr
    exact ih d'' (by omega) h4 ⟨B, hc, hr⟩

open Classical in
/-- Number of productions whose nonterminal is strictly below `A`. -/
noncomputable def under (g : Grammar) (A : Str) : Nat :=
  g.prods.countP fun p => decide (∃ B, LeftCall (Visits g) A B ∧ LeftReach (Visits g) B p.name)

theorem fits_under (A : Str) (n : Nat) (hn : under g A ≤ n)
    (hg : ∀ B, LeftReach (Visits g) A B → (∃ p ∈ g.prods, p.name = B) ∧ ¬ LeftRec (Visits g) B) :
    Fits g (n + 2) (.nonTerm A) := by
  induction n using Nat.strongRecOn generalizing A with
  | _ n ih =>
    intro A' hA'
    cases hA'
    refine ⟨(hg A .refl).1, fun Y rhs hR => ?_⟩
    cases hY : Y.asNonTerminal with
    | none =>
      have := asNonTerminal_none hY
      exact fun B hB => absurd hB (this B)
    | some B =>
      have := asNonTerminal_some hY
      subst this
      have hc : LeftCall (Visits g) A B := ⟨rhs, hR⟩
      have hlt : under g B < under g A := by
        refine countP_lt ?_ ?_
        · intro p _ hp
          simp only [decide_eq_true_eq] at hp ⊢
          obtain ⟨C, h1, h2⟩ := hp
          exact ⟨B, hc, .head h1 h2⟩
        · obtain ⟨p, hp, hpn⟩ := (hg B (.tail .refl hc)).1
          refine ⟨p, hp, ?_, ?_⟩
          · simp only [decide_eq_false_iff_not]
            rw [hpn]
            exact (hg B (.tail .refl hc)).2
          · simp only [decide_eq_true_eq]
            exact ⟨B, hc, hpn ▸ .refl⟩
      have := ih (n - 1) (by omega) B (by omega) fun C hC => hg C (.head hc hC)
      exact fits_mono this (by omega)

theorem under_le (A : Str) : under g A ≤ g.prods.length := List.countP_le_length

end Grammar
end Verif
