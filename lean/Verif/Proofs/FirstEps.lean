import Verif.Proofs.FirstSpec
import Mathlib.Tactic.Tauto

/-! FIRST in the presence of ε. -/

namespace Verif
open Spec

namespace Spec
variable {R : Str → List Sym → Prop}

/-- `X` derives the empty string. -/
inductive Nul (R : Str → List Sym → Prop) : Sym → Prop
  | eps : Nul R .epsilon
  | nt {A rhs} : R A rhs → (∀ X ∈ rhs, Nul R X) → Nul R (.nonTerm A)

/-- `t` begins a string derived from `X`. -/
inductive Fst (R : Str → List Sym → Prop) : Sym → Sym → Prop
  | term {t} : t ≠ .epsilon → (∀ A, t ≠ .nonTerm A) → Fst R t t
  | nt {A l X r t} : R A (l ++ X :: r) → (∀ Y ∈ l, Nul R Y) → Fst R X t → Fst R (.nonTerm A) t

/-- `t` begins a string derived from `ss`. -/
def SFst (R : Str → List Sym → Prop) (ss : List Sym) (t : Sym) : Prop :=
  ∃ l X r, ss = l ++ X :: r ∧ (∀ Y ∈ l, Nul R Y) ∧ Fst R X t

theorem not_sfst_nil {t : Sym} : ¬ SFst R [] t := by
  rintro ⟨l, X, r, h, _⟩
  simp at h

theorem sfst_cons {X : Sym} {ss : List Sym} {t : Sym} : SFst R (X :: ss) t ↔ Fst R X t ∨ (Nul R X ∧ SFst R ss t) := by
  constructor
  · rintro ⟨l, Y, r, h, hl, hY⟩
    cases l with
    | nil =>
      simp only [List.nil_append, List.cons.injEq] at h
      obtain ⟨rfl, rfl⟩ := h
      exact .inl hY
    | cons Z l =>
      simp only [List.cons_append, List.cons.injEq] at h
      obtain ⟨rfl, rfl⟩ := h
      exact .inr ⟨hl _ (by simp), l, Y, r, rfl, fun y hy => hl y (by simp [hy]), hY⟩
  · rintro (h | ⟨h, l, Y, r, rfl, hl, hY⟩)
    · exact ⟨[], X, ss, rfl, by simp, h⟩
    · refine ⟨X :: l, Y, r, rfl, ?_, hY⟩
      intro y hy
      rcases List.mem_cons.mp hy with rfl | hy
      · exact h
      · exact hl y hy

theorem sfst_append {a b : List Sym} {t : Sym} : SFst R (a ++ b) t ↔ SFst R a t ∨ ((∀ X ∈ a, Nul R X) ∧ SFst R b t) := by
  induction a with
  | nil => simp [not_sfst_nil]
  | cons X a ih =>
    rw [List.cons_append, sfst_cons, ih, sfst_cons]
    simp only [List.mem_cons, forall_eq_or_imp]
    tauto

theorem Fst.ne {X t : Sym} (h : Fst R X t) : t ≠ .epsilon ∧ ∀ A, t ≠ .nonTerm A := by
  induction h with
  | term h1 h2 => exact ⟨h1, h2⟩
  | nt _ _ _ ih => exact ih

theorem nul_erase {ss : List Sym} : (∀ X ∈ erase ss, Nul R X) ↔ ∀ X ∈ ss, Nul R X := by
  constructor
  · intro h X hX
    by_cases he : X = .epsilon
    · subst he; exact .eps
    · exact h X (List.mem_filter.mpr ⟨hX, by simpa using he⟩)
  · exact fun h X hX => h X (List.mem_filter.mp hX).1

theorem not_fst_eps {t : Sym} : ¬ Fst R .epsilon t := by
  intro h
  cases h with
  | term h _ => exact h rfl

theorem erase_eps (ss : List Sym) : erase (.epsilon :: ss) = erase ss := by simp [erase]

theorem erase_cons {X : Sym} (h : X ≠ .epsilon) (ss : List Sym) : erase (X :: ss) = X :: erase ss := by simp [erase, h]

theorem erase_append (a b : List Sym) : erase (a ++ b) = erase a ++ erase b := by simp [erase]

theorem sfst_erase {ss : List Sym} {t : Sym} : SFst R (erase ss) t ↔ SFst R ss t := by
  induction ss with
  | nil => simp [erase]
  | cons X ss ih =>
    by_cases he : X = .epsilon
    · subst he
      rw [erase_eps, ih, sfst_cons]
      simp [not_fst_eps, Nul.eps]
    · rw [erase_cons he, sfst_cons, sfst_cons, ih]

theorem nullable_nul {α : List Sym} (h : Nullable R α) : ∀ X ∈ α, Nul R X := by
  rw [← nul_erase]
  unfold Nullable at h
  have key : ∀ {a b}, Steps (Erased R) a b → (∀ X ∈ b, Nul R X) → ∀ X ∈ a, Nul R X := by
    intro a b h
    induction h with
    | refl => exact fun h => h
    | tail _ h ih =>
      intro hb
      apply ih
      cases h with
      | @mk l r A rhs hR =>
        obtain ⟨r', hr, rfl⟩ := hR
        intro X hX
        simp only [List.mem_append, List.mem_cons] at hX hb
        rcases hX with hX | rfl | hX
        · exact hb X (.inl (.inl hX))
        · exact .nt hr (nul_erase.mp fun Y hY => hb Y (.inl (.inr hY)))
        · exact hb X (.inr hX)
  exact key h (by simp)

theorem nul_nullable {X : Sym} (h : Nul R X) : Nullable R [X] := by
  unfold Nullable
  induction h with
  | eps => exact .refl
  | @nt A rhs hR _ ih =>
    have h2 : ∀ l : List Sym, (∀ X ∈ l, Steps (Erased R) (erase [X]) []) → Steps (Erased R) (erase l) [] := by
      intro l
      induction l with
      | nil => exact fun _ => .refl
      | cons X l ihl =>
        intro h
        have h1 := h X (by simp)
        have h2 := ihl fun y hy => h y (by simp [hy])
        have := h1.append h2
        rwa [← erase_append] at this
    have : erase [Sym.nonTerm A] = [.nonTerm A] := by simp [erase]
    rw [this]
    exact (Steps.rule (R := Erased R) ⟨rhs, hR, rfl⟩).trans (h2 rhs ih)

theorem nullable_iff {α : List Sym} : Nullable R α ↔ ∀ X ∈ α, Nul R X := by
  refine ⟨nullable_nul, fun h => ?_⟩
  induction α with
  | nil => exact .refl
  | cons X α ih =>
    have h1 := nul_nullable (h X (by simp))
    have h2 := ih fun y hy => h y (by simp [hy])
    have := Steps.append h1 h2
    rwa [← erase_append] at this

theorem starts_sfst {α : List Sym} {t : Sym} (ht : t ≠ .epsilon) (h : Starts (Erased R) (erase α) t) : SFst R α t := by
  rw [← sfst_erase]
  obtain ⟨hn, β, hβ⟩ := h
  have key : ∀ {a b}, Steps (Erased R) a b → SFst R b t → SFst R a t := by
    intro a b h
    induction h with
    | refl => exact fun h => h
    | tail _ h ih =>
      intro hb
      apply ih
      cases h with
      | @mk l r A rhs hR =>
        obtain ⟨r', hr, rfl⟩ := hR
        rw [List.append_assoc, sfst_append, sfst_append, sfst_erase, nul_erase] at hb
        rw [sfst_append, sfst_cons]
        rcases hb with hb | ⟨h1, ⟨l', X, r2, h2, h3, h4⟩ | ⟨h2, h3⟩⟩
        · exact .inl hb
        · subst h2; exact .inr ⟨h1, .inl (.nt hr h3 h4)⟩
        · exact .inr ⟨h1, .inr ⟨.nt hr h2, h3⟩⟩
  exact key hβ ⟨[], t, β, rfl, by simp, .term ht hn⟩

theorem fst_starts {X t : Sym} (h : Fst R X t) : ∃ β, Steps (Erased R) (erase [X]) (t :: β) := by
  induction h with
  | @term t h1 h2 => exact ⟨[], by rw [erase_cons h1]; exact .refl⟩
  | @nt A l X r t hR hl _ ih =>
    obtain ⟨β, hβ⟩ := ih
    have : erase [Sym.nonTerm A] = [.nonTerm A] := by simp [erase]
    rw [this]
    refine ⟨β ++ erase r, (Steps.rule (R := Erased R) ⟨_, hR, rfl⟩).trans ?_⟩
    have h1 : Steps (Erased R) (erase l) [] := nullable_iff.mpr hl
    have h2 := h1.append (hβ.append (.refl (α := erase r)))
    rw [← erase_append, ← erase_append] at h2
    simpa using h2

theorem starts_iff_sfst {α : List Sym} {t : Sym} (ht : t ≠ .epsilon) : Starts (Erased R) (erase α) t ↔ SFst R α t := by
  refine ⟨starts_sfst ht, ?_⟩
  rintro ⟨l, X, r, rfl, hl, hX⟩
  refine ⟨hX.ne.2, ?_⟩
  obtain ⟨β, hβ⟩ := fst_starts hX
  have h1 : Steps (Erased R) (erase l) [] := nullable_iff.mpr hl
  have h2 := h1.append (hβ.append (.refl (α := erase r)))
  rw [← erase_append, ← erase_append] at h2
  exact ⟨_, by simpa using h2⟩

end Spec

namespace Grammar
variable {g : Grammar} {C : Prop}

/-- What a call that adds to a set has done: `F` are the symbols to add, `N` forces the
flag, `E` is what a raised flag means if `C`. -/
structure Added (C : Prop) (F : Sym → Prop) (N E : Prop) (set set' : List Sym) (b0 b : Bool) : Prop where
  mono : ∀ t ∈ set, t ∈ set'
  cover : ∀ t, F t → t ∈ set'
  flag0 : b0 = true → b = true
  nul : N → b = true
  epsIn : b = true → b0 = true ∨ Sym.epsilon ∈ set'
  epsOut : Sym.epsilon ∈ set' → Sym.epsilon ∈ set ∨ b = true
  sound : C → ∀ t ∈ set', t ∈ set ∨ t = .epsilon ∨ F t
  flagE : C → b = true → b0 = true ∨ E

variable {R : Str → List Sym → Prop} {rec : List Sym → Sym → Res (List Sym × Bool)}

theorem firstInputs_added (hrec : ∀ set X set' b, rec set X = .ok (set', b) →
      Added C (Fst R X) (Nul R X) (Nul R X) set set' false b) :
    ∀ (ss set : List Sym) (b0 : Bool) (set' : List Sym) (b : Bool), firstInputs rec ss set b0 = .ok (set', b) →
      Added C (SFst R ss) (ss ≠ [] ∧ ∀ X ∈ ss, Nul R X) (∃ X r, ss = X :: r ∧ Nul R X) set set' b0 b
  | [], set, b0, set', b, h => by
    simp only [firstInputs, Except.ok.injEq, Prod.mk.injEq] at h
    obtain ⟨rfl, rfl⟩ := h
    exact ⟨fun _ h => h, fun t h => absurd h not_sfst_nil, fun h => h, fun h => absurd rfl h.1, .inl, .inl,
      fun _ t h => .inl h, fun _ h => .inl h⟩
  | X :: ss, set, b0, set', b, h => by
    simp only [firstInputs, bind, Except.bind] at h
    cases hr : rec set X with
    | error e => simp [hr] at h
    | ok p =>
      obtain ⟨mid, he⟩ := p
      have A := hrec _ _ _ _ hr
      simp only [hr] at h
      cases he with
      | true =>
        simp only [if_true] at h
        have B := firstInputs_added hrec ss mid true set' b h
        have hb := B.flag0 rfl
        refine ⟨fun t ht => B.mono t (A.mono t ht), ?_, fun _ => hb, fun _ => hb, ?_, ?_, ?_, ?_⟩
        · intro t ht
          rcases sfst_cons.mp ht with h | ⟨_, h⟩
          · exact B.mono t (A.cover t h)
          · exact B.cover t h
        · intro _
          rcases A.epsIn rfl with h | h
          · cases h
          · exact .inr (B.mono _ h)
        · exact fun _ => .inr hb
        · intro hC t ht
          have hX : Nul R X := (A.flagE hC rfl).resolve_left (by simp)
          rcases B.sound hC t ht with h | h | h
          · rcases A.sound hC t h with h | h | h
            · exact .inl h
            · exact .inr (.inl h)
            · exact .inr (.inr (sfst_cons.mpr (.inl h)))
          · exact .inr (.inl h)
          · exact .inr (.inr (sfst_cons.mpr (.inr ⟨hX, h⟩)))
        · exact fun hC _ => .inr ⟨X, ss, rfl, (A.flagE hC rfl).resolve_left (by simp)⟩
      | false =>
        simp only [Bool.false_eq_true, if_false, pure, Except.pure, Except.ok.injEq, Prod.mk.injEq] at h
        obtain ⟨rfl, rfl⟩ := h
        have hX : ¬ Nul R X := fun h => by simpa using A.nul h
        refine ⟨A.mono, ?_, fun h => h, fun h => absurd (h.2 X (by simp)) hX, .inl, ?_, ?_, fun _ h => .inl h⟩
        · intro t ht
          rcases sfst_cons.mp ht with h | ⟨h, _⟩
          · exact A.cover t h
          · exact absurd h hX
        · intro h
          rcases A.epsOut h with h | h
          · exact .inl h
          · cases h
        · intro hC t ht
          rcases A.sound hC t ht with h | h | h
          · exact .inl h
          · exact .inr (.inl h)
          · exact .inr (.inr (sfst_cons.mpr (.inl h)))

theorem firstProds_added (hrec : ∀ set X set' b, rec set X = .ok (set', b) →
      Added C (Fst R X) (Nul R X) (Nul R X) set set' false b) :
    ∀ (ps : List Nat) (set : List Sym) (b0 : Bool) (set' : List Sym) (b : Bool), firstProds g rec ps set b0 = .ok (set', b) →
      Added C (fun t => ∃ p ∈ ps, SFst R (g.prodAt p).inputs t)
        (∃ p ∈ ps, (g.prodAt p).inputs ≠ [] ∧ ∀ X ∈ (g.prodAt p).inputs, Nul R X)
        (∃ p ∈ ps, ∃ X r, (g.prodAt p).inputs = X :: r ∧ Nul R X) set set' b0 b
  | [], set, b0, set', b, h => by
    simp only [firstProds, Except.ok.injEq, Prod.mk.injEq] at h
    obtain ⟨rfl, rfl⟩ := h
    exact ⟨fun _ h => h, by simp, fun h => h, by simp, .inl, .inl, fun _ t h => .inl h, fun _ h => .inl h⟩
  | p :: ps, set, b0, set', b, h => by
    simp only [firstProds, bind, Except.bind] at h
    cases hr : firstInputs rec (g.prodAt p).inputs set b0 with
    | error e => simp [hr] at h
    | ok q =>
      obtain ⟨mid, bm⟩ := q
      simp only [hr] at h
      have A := firstInputs_added hrec _ _ _ _ _ hr
      have B := firstProds_added hrec ps mid bm set' b h
      refine ⟨fun t ht => B.mono t (A.mono t ht), ?_, fun h => B.flag0 (A.flag0 h), ?_, ?_, ?_, ?_, ?_⟩
      · rintro t ⟨q, hq, ht⟩
        rcases List.mem_cons.mp hq with rfl | hq
        · exact B.mono t (A.cover t ht)
        · exact B.cover t ⟨q, hq, ht⟩
      · rintro ⟨q, hq, ht⟩
        rcases List.mem_cons.mp hq with rfl | hq
        · exact B.flag0 (A.nul ht)
        · exact B.nul ⟨q, hq, ht⟩
      · intro hb
        rcases B.epsIn hb with h | h
        · rcases A.epsIn h with h | h
          · exact .inl h
          · exact .inr (B.mono _ h)
        · exact .inr h
      · intro h
        rcases B.epsOut h with h | h
        · rcases A.epsOut h with h | h
          · exact .inl h
          · exact .inr (B.flag0 h)
        · exact .inr h
      · intro hC t ht
        rcases B.sound hC t ht with h | h | ⟨q, hq, h⟩
        · rcases A.sound hC t h with h | h | h
          · exact .inl h
          · exact .inr (.inl h)
          · exact .inr (.inr ⟨p, by simp, h⟩)
        · exact .inr (.inl h)
        · exact .inr (.inr ⟨q, by simp [hq], h⟩)
      · intro hC hb
        rcases B.flagE hC hb with h | ⟨q, hq, h⟩
        · rcases A.flagE hC h with h | h
          · exact .inl h
          · exact .inr ⟨p, by simp, h⟩
        · exact .inr ⟨q, by simp [hq], h⟩

/-- `R` are the rules of `g`, none with an empty body. -/
structure RulesOf (g : Grammar) : Prop where
  iter : ∀ A l, g.productionIter A = .ok l → ∀ rhs, Rule g.prods A rhs ↔ ∃ p ∈ l, (g.prodAt p).inputs = rhs
  ne : ∀ A, ¬ Rule g.prods A []

theorem firstOfSymbol_added (hg : RulesOf g) (hC : C → ∀ A X r, Rule g.prods A (X :: r) → Nul (Rule g.prods) X →
      ∀ Y ∈ r, Nul (Rule g.prods) Y) :
    ∀ (depth : Nat) (set : List Sym) (X : Sym) (set' : List Sym) (b : Bool), firstOfSymbol g depth set X = .ok (set', b) →
      Added C (Fst (Rule g.prods) X) (Nul (Rule g.prods) X) (Nul (Rule g.prods) X) set set' false b
  | 0, set, X, set', b, h => by simp [firstOfSymbol] at h
  | depth + 1, set, X, set', b, h => by
    have term : (∀ A, X ≠ .nonTerm A) → firstOfSymbol g (depth + 1) set X = .ok (oinsert X set, decide (X = .epsilon)) := by
      intro hX
      cases X <;> simp [firstOfSymbol, Sym.asNonTerminal] at hX ⊢
    by_cases hX : ∀ A, X ≠ .nonTerm A
    · rw [term hX] at h
      simp only [Except.ok.injEq, Prod.mk.injEq] at h
      obtain ⟨rfl, rfl⟩ := h
      have hF : ∀ t, Fst (Rule g.prods) X t → t = X := by
        intro t ht
        cases ht with
        | term => rfl
        | nt => exact absurd rfl (hX _)
      have hN : Nul (Rule g.prods) X → X = .epsilon := by
        intro h
        cases h with
        | eps => rfl
        | nt => exact absurd rfl (hX _)
      refine ⟨fun t ht => mem_oinsert.mpr (.inr ht), fun t ht => mem_oinsert.mpr (.inl (hF t ht)), by simp,
        fun h => by simpa using hN h, ?_, ?_, ?_, ?_⟩
      · intro h
        simp only [decide_eq_true_eq] at h
        exact .inr (mem_oinsert.mpr (.inl h.symm))
      · intro h
        rcases mem_oinsert.mp h with h | h
        · exact .inr (by simp [← h])
        · exact .inl h
      · intro _ t ht
        rcases mem_oinsert.mp ht with rfl | h
        · by_cases he : t = .epsilon
          · exact .inr (.inl he)
          · exact .inr (.inr (.term he hX))
        · exact .inl h
      · intro _ h
        simp only [decide_eq_true_eq] at h
        subst h
        exact .inr .eps
    · simp only [not_forall, not_not] at hX
      obtain ⟨A, rfl⟩ := hX
      simp only [firstOfSymbol, Sym.asNonTerminal, bind, Except.bind] at h
      cases hi : g.productionIter A with
      | error e => simp [hi] at h
      | ok l =>
        simp only [hi] at h
        have B := firstProds_added (firstOfSymbol_added hg hC depth) l set false set' b h
        have hr := hg.iter A l hi
        refine ⟨B.mono, ?_, by simp, ?_, B.epsIn, B.epsOut, ?_, ?_⟩
        · intro t ht
          cases ht with
          | term _ h => exact absurd rfl (h A)
          | @nt _ l' Y r _ h1 h2 h3 =>
            obtain ⟨p, hp, he⟩ := (hr _).mp h1
            exact B.cover t ⟨p, hp, l', Y, r, he, h2, h3⟩
        · intro hN
          cases hN with
          | @nt _ rhs h1 h2 =>
            obtain ⟨p, hp, he⟩ := (hr _).mp h1
            refine B.nul ⟨p, hp, ?_, by rw [he]; exact h2⟩
            rw [he]
            rintro rfl
            exact hg.ne A h1
        · intro c t ht
          rcases B.sound c t ht with h | h | ⟨p, hp, l', Y, r, h1, h2, h3⟩
          · exact .inl h
          · exact .inr (.inl h)
          · exact .inr (.inr (.nt ((hr _).mpr ⟨p, hp, h1⟩) h2 h3))
        · intro c hb
          rcases B.flagE c hb with h | ⟨p, hp, X, r, h1, h2⟩
          · cases h
          · have h3 := (hr _).mpr ⟨p, hp, h1⟩
            refine .inr (.nt h3 ?_)
            intro Y hY
            rcases List.mem_cons.mp hY with rfl | hY
            · exact h2
            · exact hC c _ _ _ h3 h2 Y hY

theorem firstLoop_added (hg : RulesOf g) (hC : C → ∀ A X r, Rule g.prods A (X :: r) → Nul (Rule g.prods) X →
      ∀ Y ∈ r, Nul (Rule g.prods) Y) (depth : Nat) :
    ∀ (ss set set' : List Sym) (b : Bool), Sym.epsilon ∉ set → firstLoop g depth ss set true = .ok (set', b) →
      Sym.epsilon ∉ set' ∧ (∀ t ∈ set, t ∈ set') ∧ (∀ t, SFst (Rule g.prods) ss t → t ∈ set') ∧
      ((∀ X ∈ ss, Nul (Rule g.prods) X) → b = true) ∧
      (C → (∀ t ∈ set', t ∈ set ∨ SFst (Rule g.prods) ss t) ∧ (b = true → ∀ X ∈ ss, Nul (Rule g.prods) X))
  | [], set, set', b, he, h => by
    simp only [firstLoop, Except.ok.injEq, Prod.mk.injEq] at h
    obtain ⟨rfl, rfl⟩ := h
    exact ⟨he, fun _ h => h, fun t h => absurd h not_sfst_nil, fun _ => rfl, fun _ => ⟨fun t h => .inl h, by simp⟩⟩
  | X :: ss, set, set', b, he, h => by
    simp only [firstLoop, bind, Except.bind] at h
    cases hr : firstOfSymbol g depth set X with
    | error e => simp [hr] at h
    | ok p =>
      obtain ⟨mid, bm⟩ := p
      have A := firstOfSymbol_added hg hC depth _ _ _ _ hr
      simp only [hr] at h
      have hbm : bm = decide (Sym.epsilon ∈ mid) := by
        cases bm with
        | true =>
          have : Sym.epsilon ∈ mid := (A.epsIn rfl).resolve_left (by simp)
          simp [this]
        | false =>
          have : Sym.epsilon ∉ mid := fun h => by
            rcases A.epsOut h with h | h
            · exact he h
            · cases h
          simp [this]
      rw [← hbm] at h
      have hf : ∀ t, t ∈ mid.filter (fun x => decide (x ≠ Sym.epsilon)) ↔ t ∈ mid ∧ t ≠ .epsilon := by
        intro t; simp
      have hnf : Sym.epsilon ∉ mid.filter (fun x => decide (x ≠ Sym.epsilon)) := by simp
      have hin : ∀ t ∈ set, t ∈ mid.filter (fun x => decide (x ≠ Sym.epsilon)) := by
        intro t ht
        refine (hf t).mpr ⟨A.mono t ht, ?_⟩
        rintro rfl
        exact he ht
      have hcov : ∀ t, Fst (Rule g.prods) X t → t ∈ mid.filter (fun x => decide (x ≠ Sym.epsilon)) :=
        fun t ht => (hf t).mpr ⟨A.cover t ht, ht.ne.1⟩
      have hso : C → ∀ t ∈ mid.filter (fun x => decide (x ≠ Sym.epsilon)), t ∈ set ∨ Fst (Rule g.prods) X t := by
        intro c t ht
        obtain ⟨h1, h2⟩ := (hf t).mp ht
        rcases A.sound c t h1 with h | h | h
        · exact .inl h
        · exact absurd h h2
        · exact .inr h
      cases bm with
      | true =>
        simp only [if_true] at h
        obtain ⟨k1, k2, k3, k4, k5⟩ := firstLoop_added hg hC depth ss _ set' b hnf h
        refine ⟨k1, fun t ht => k2 t (hin t ht), ?_, fun h => k4 fun Y hY => h Y (by simp [hY]), ?_⟩
        · intro t ht
          rcases sfst_cons.mp ht with h | ⟨_, h⟩
          · exact k2 t (hcov t h)
          · exact k3 t h
        · intro c
          have hX : Nul (Rule g.prods) X := (A.flagE c rfl).resolve_left (by simp)
          obtain ⟨k6, k7⟩ := k5 c
          refine ⟨?_, ?_⟩
          · intro t ht
            rcases k6 t ht with h | h
            · rcases hso c t h with h | h
              · exact .inl h
              · exact .inr (sfst_cons.mpr (.inl h))
            · exact .inr (sfst_cons.mpr (.inr ⟨hX, h⟩))
          · intro hb Y hY
            rcases List.mem_cons.mp hY with rfl | hY
            · exact hX
            · exact k7 hb Y hY
      | false =>
        simp only [Bool.false_eq_true, if_false, pure, Except.pure, Except.ok.injEq, Prod.mk.injEq] at h
        obtain ⟨rfl, rfl⟩ := h
        have hX : ¬ Nul (Rule g.prods) X := fun h => by simpa using A.nul h
        refine ⟨hnf, hin, ?_, fun h => absurd (h X (by simp)) hX, fun c => ⟨?_, by simp⟩⟩
        · intro t ht
          rcases sfst_cons.mp ht with h | ⟨h, _⟩
          · exact hcov t h
          · exact absurd h hX
        · intro t ht
          rcases hso c t ht with h | h
          · exact .inl h
          · exact .inr (sfst_cons.mpr (.inl h))

theorem rulesOf {ps : List Ast.Prod} (hb : ∀ p ∈ ps, ∀ b ∈ p.bodies, b.inputs ≠ []) (hg : fromAst ps = .ok g) :
    RulesOf g := by
  cases hf : ps.find? (fun p => p.isStart) with
  | none => simp [fromAst, hf] at hg
  | some start =>
    obtain ⟨g', h1, _, h3, h4, _⟩ := fromAst_spec hf
    rw [hg] at h1; cases h1
    refine ⟨?_, ?_⟩
    · intro A l hi rhs
      unfold productionIter at hi
      cases hm : mget A g.nameMap with
      | none => simp [hm] at hi
      | some l' =>
        simp only [hm, Except.ok.injEq] at hi
        subst hi
        obtain ⟨_, _, k⟩ := (h3.2 A).1 _ hm
        constructor
        · rintro ⟨p, hp, hn, rfl⟩
          obtain ⟨i, hi⟩ := List.getElem?_of_mem hp
          exact ⟨i, (k i).mpr ⟨p, hi, hn⟩, by simp [prodAt, List.getD, hi]⟩
        · rintro ⟨i, hi, rfl⟩
          obtain ⟨p, hp, hn⟩ := (k i).mp hi
          refine ⟨p, List.mem_of_getElem? hp, hn, ?_⟩
          simp [prodAt, List.getD, hp]
    · rintro A ⟨p, hp, _, he⟩
      rw [h4] at hp
      rcases List.mem_cons.mp hp with rfl | hp
      · simp at he
      · obtain ⟨q, hq, hp⟩ := List.mem_flatMap.mp hp
        obtain ⟨b, hb', rfl⟩ := List.mem_map.mp hp
        simp only [fromAstBody, List.map_eq_nil_iff] at he
        exact hb q hq b hb' he

end Grammar
end Verif
