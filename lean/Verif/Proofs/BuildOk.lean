import Verif.Proofs.Progress

/-! When the collection of item sets can be built, in terms of the rules alone. -/

namespace Verif
open Spec Grammar

namespace Spec
variable {R : Str → List Sym → Prop}

theorem Uses.trans {A B C : Str} (h : Uses R A B) (h' : Uses R B C) : Uses R A C := by
  induction h' with
  | refl => exact h
  | tail _ hR hm ih => exact .tail ih hR hm

theorem LeftReach.uses {A B : Str} (h : LeftReach R A B) : Uses R A B := by
  induction h with
  | refl => exact .refl
  | tail _ hc ih =>
    obtain ⟨rhs, hR⟩ := hc
    exact .tail ih hR (by simp)

theorem Follows.uses {S C : Str} (h : Follows R S C) : Uses R S C := by
  obtain ⟨A, l, B, r, h1, h2⟩ := h
  exact .tail h1 h2 (by simp)

/-- Rules that agree on everything that can be reached. -/
theorem Uses.congr {R' : Str → List Sym → Prop} {S : Str} (hR : ∀ A rhs, Uses R S A → R A rhs → R' A rhs) {A : Str}
    (h : Uses R S A) : Uses R' S A := by
  induction h with
  | refl => exact .refl
  | tail h1 h2 h3 ih => exact .tail ih (hR _ _ h1 h2) h3

theorem LeftReach.congr {R' : Str → List Sym → Prop} {S : Str} (hR : ∀ A rhs, Uses R S A → R A rhs → R' A rhs)
    {A B : Str} (hA : Uses R S A) (h : LeftReach R A B) : LeftReach R' A B := by
  induction h with
  | refl => exact .refl
  | tail h1 h2 ih =>
    obtain ⟨rhs, h2⟩ := h2
    exact .tail ih ⟨rhs, hR _ _ (hA.trans h1.uses) h2⟩

theorem LeftRec.congr {R' : Str → List Sym → Prop} {S : Str} (hR : ∀ A rhs, Uses R S A → R A rhs → R' A rhs)
    {A : Str} (hA : Uses R S A) (h : LeftRec R A) : LeftRec R' A := by
  obtain ⟨B, ⟨rhs, h1⟩, h2⟩ := h
  exact ⟨B, ⟨rhs, hR _ _ hA h1⟩, LeftReach.congr hR (.tail hA h1 (by simp)) h2⟩

theorem Follows.congr {R' : Str → List Sym → Prop} {S : Str} (hR : ∀ A rhs, Uses R S A → R A rhs → R' A rhs)
    {A : Str} (h : Follows R S A) : Follows R' S A := by
  obtain ⟨A', l, B, r, h1, h2⟩ := h
  exact ⟨A', l, B, r, Uses.congr hR h1, hR _ _ h1 h2⟩

theorem Buildable.congr {R' : Str → List Sym → Prop} {S : Str} (hR : ∀ A rhs, Uses R S A → R A rhs → R' A rhs)
    (hR' : ∀ A rhs, Uses R' S A → R' A rhs → R A rhs) (h : Buildable R S) : Buildable R' S := by
  refine ⟨fun A hA => ?_, fun A B hA hB hrec => ?_⟩
  · obtain ⟨rhs, h1⟩ := h.defined A (Uses.congr hR' hA)
    exact ⟨rhs, hR _ _ (Uses.congr hR' hA) h1⟩
  · exact h.first A B (Follows.congr hR' hA) (LeftReach.congr hR' hA.uses hB)
      (LeftRec.congr hR' (hA.uses.trans hB.uses) hrec)

end Spec

namespace Grammar
variable {g : Grammar}

theorem rule_cases {ps : List Ast.Prod} {start : Ast.Prod} (hs : ps.find? (fun p => p.isStart) = some start)
    (hg : fromAst ps = .ok g) {A : Str} {rhs : List Sym} :
    Rule g.prods A rhs ↔ (A = g.augName ∧ rhs = [.nonTerm start.name]) ∨ AstRule ps A rhs := by
  obtain ⟨g', hg', haug, _, hp, _⟩ := fromAst_spec hs
  rw [hg] at hg'; cases hg'
  unfold Rule AstRule
  rw [hp, haug]
  constructor
  · rintro ⟨p, hp, rfl, rfl⟩
    rcases List.mem_cons.mp hp with rfl | hp
    · exact .inl ⟨rfl, rfl⟩
    · simp only [List.mem_flatMap, List.mem_map] at hp
      obtain ⟨q, hq, b, hb, rfl⟩ := hp
      exact .inr ⟨q, hq, b, hb, rfl, rfl⟩
  · rintro (⟨rfl, rfl⟩ | ⟨q, hq, b, hb, rfl, rfl⟩)
    · exact ⟨_, List.mem_cons_self, rfl, rfl⟩
    · exact ⟨fromAstBody q b, List.mem_cons_of_mem _ (List.mem_flatMap.mpr ⟨q, hq, List.mem_map_of_mem hb⟩), rfl, rfl⟩

theorem aug_unused (h : GOk g) {A : Str} (hA : Uses (Rule g.prods) A g.augName) : A = g.augName := by
  generalize hB : g.augName = B at hA
  cases hA with
  | refl => rfl
  | tail _ hR hm =>
    obtain ⟨p, hp, _, rfl⟩ := hR
    exact absurd (hB ▸ hm) (h.fresh p hp)

theorem uses_aug {S : Str} (hS : ∀ rhs, Rule g.prods g.augName rhs ↔ rhs = [.nonTerm S]) {A : Str}
    (hA : Uses (Rule g.prods) g.augName A) : A = g.augName ∨ Uses (Rule g.prods) S A := by
  induction hA with
  | refl => exact .inl rfl
  | tail _ hR hm ih =>
    rcases ih with rfl | ih
    · rw [hS] at hR; subst hR
      simp only [List.mem_singleton, Sym.nonTerm.injEq] at hm
      exact .inr (hm ▸ .refl)
    · exact .inr (.tail ih hR hm)

/-- The added start rule makes no difference. -/
theorem buildable_aug (h : GOk g) {S : Str} (hS : ∀ rhs, Rule g.prods g.augName rhs ↔ rhs = [.nonTerm S]) :
    Buildable (Rule g.prods) g.augName ↔ Buildable (Rule g.prods) S := by
  have hu : ∀ {A}, Uses (Rule g.prods) S A → Uses (Rule g.prods) g.augName A := fun hA =>
    (Uses.tail .refl ((hS _).mpr rfl) (by simp)).trans hA
  constructor
  · rintro ⟨h1, h2⟩
    refine ⟨fun A hA => h1 A (hu hA), fun A B hA => h2 A B ?_⟩
    obtain ⟨A', l, C, r, k1, k2⟩ := hA
    exact ⟨A', l, C, r, hu k1, k2⟩
  · rintro ⟨h1, h2⟩
    refine ⟨fun A hA => ?_, fun A B hA => h2 A B ?_⟩
    · rcases uses_aug hS hA with rfl | hA
      · exact ⟨_, (hS _).mpr rfl⟩
      · exact h1 A hA
    · obtain ⟨A', l, C, r, k1, k2⟩ := hA
      refine ⟨A', l, C, r, ?_, k2⟩
      rcases uses_aug hS k1 with rfl | k1
      · rw [hS] at k2
        have := congrArg List.length k2
        simp only [List.length_append, List.length_cons, List.length_nil] at this
        omega
      · exact k1

/-- The rules of the grammar and those of the file agree on what can be reached. -/
theorem rules_agree {ps : List Ast.Prod} {start : Ast.Prod} (he : Expressible ps)
    (hs : ps.find? (fun p => p.isStart) = some start) (hg : fromAst ps = .ok g) :
    (∀ rhs, Rule g.prods g.augName rhs ↔ rhs = [.nonTerm start.name]) ∧
    (∀ A rhs, AstRule ps A rhs → Rule g.prods A rhs) ∧
    (∀ A rhs, Uses (Rule g.prods) start.name A → Rule g.prods A rhs → AstRule ps A rhs) := by
  have hok := gok_of_fromAst he hg
  obtain ⟨g', hg', haug, _, hp, _⟩ := fromAst_spec hs
  rw [hg] at hg'; cases hg'
  have hno : ∀ A, '\'' ∉ A → A ≠ g.augName := by
    rintro A hA rfl
    exact hA (by rw [haug]; simp)
  have hq := (he start (List.mem_of_find?_eq_some hs)).1
  refine ⟨fun rhs => ?_, fun A rhs h => (rule_cases hs hg).mpr (.inr h), fun A rhs hA hR => ?_⟩
  · rw [rule_cases hs hg]
    constructor
    · rintro (⟨_, h⟩ | ⟨p, hp, b, _, hn, _⟩)
      · exact h
      · exact absurd hn (hno _ (he p hp).1)
    · exact fun h => .inl ⟨rfl, h⟩
  · rcases (rule_cases hs hg).mp hR with ⟨rfl, _⟩ | hR
    · exact absurd (aug_unused hok hA) (hno _ hq)
    · exact hR

theorem buildable_iff {ps : List Ast.Prod} {start : Ast.Prod} (he : Expressible ps)
    (hs : ps.find? (fun p => p.isStart) = some start) (hg : fromAst ps = .ok g) :
    Buildable (Rule g.prods) g.augName ↔ Buildable (AstRule ps) start.name := by
  obtain ⟨hS, hto, hof⟩ := rules_agree he hs hg
  rw [buildable_aug (gok_of_fromAst he hg) hS]
  exact ⟨Buildable.congr hof fun A rhs _ => hto A rhs, Buildable.congr (fun A rhs _ => hto A rhs) hof⟩

theorem uses_ast {ps : List Ast.Prod} {start : Ast.Prod} (he : Expressible ps)
    (hs : ps.find? (fun p => p.isStart) = some start) (hg : fromAst ps = .ok g) {A : Str}
    (hA : Uses (Rule g.prods) g.augName A) (hn : ∀ rhs, ¬ Rule g.prods A rhs) :
    Uses (AstRule ps) start.name A ∧ ∀ rhs, ¬ AstRule ps A rhs := by
  obtain ⟨hS, hto, hof⟩ := rules_agree he hs hg
  rcases uses_aug hS hA with rfl | hA
  · exact absurd ((hS _).mpr rfl) (hn _)
  · exact ⟨hA.congr hof, fun rhs h => hn rhs (hto A rhs h)⟩

theorem leftRec_ast {ps : List Ast.Prod} {start : Ast.Prod} (he : Expressible ps)
    (hs : ps.find? (fun p => p.isStart) = some start) (hg : fromAst ps = .ok g) {A B : Str}
    (hA : Follows (Rule g.prods) g.augName A) (hB : LeftReach (Rule g.prods) A B) (hr : LeftRec (Rule g.prods) B) :
    Follows (AstRule ps) start.name A ∧ LeftReach (AstRule ps) A B ∧ LeftRec (AstRule ps) B := by
  obtain ⟨hS, hto, hof⟩ := rules_agree he hs hg
  have hA' : Follows (Rule g.prods) start.name A := by
    obtain ⟨A', l, C, r, k1, k2⟩ := hA
    refine ⟨A', l, C, r, ?_, k2⟩
    rcases uses_aug hS k1 with rfl | k1
    · rw [hS] at k2
      have := congrArg List.length k2
      simp only [List.length_append, List.length_cons, List.length_nil] at this
      omega
    · exact k1
  exact ⟨hA'.congr hof, hB.congr hof hA'.uses, hr.congr hof (hA'.uses.trans hB.uses)⟩

/-- Depth at which `first_of_symbol` does not run out of stack. -/
def Shallow (g : Grammar) : Nat → Sym → Prop
  | 0, _ => False
  | d + 1, X => ∀ A, X = .nonTerm A → (∃ p ∈ g.prods, p.name = A) → ∀ Y rhs, Rule g.prods A (Y :: rhs) → Shallow g d Y

theorem shallow_mono : ∀ {d d' : Nat} {X : Sym}, Shallow g d X → d ≤ d' → Shallow g d' X
  | 0, _, _, h, _ => h.elim
  | d + 1, 0, _, _, hl => by omega
  | d + 1, d' + 1, X, h, hl => fun A hA hd Y rhs hR => shallow_mono (h A hA hd Y rhs hR) (by omega)

theorem shallow_below (A : Str) (n : Nat) (hn : below g A ≤ n)
    (hg : ∀ B, LeftReach (Rule g.prods) A B → ¬ LeftRec (Rule g.prods) B) : Shallow g (n + 2) (.nonTerm A) := by
  induction n using Nat.strongRecOn generalizing A with
  | _ n ih =>
    intro A' hA' _ Y rhs hR
    cases hA'
    cases hY : Y.asNonTerminal with
    | none =>
      have := asNonTerminal_none hY
      exact fun B hB => absurd hB (this B)
    | some B =>
      have := asNonTerminal_some hY
      subst this
      by_cases hdef : ∃ p ∈ g.prods, p.name = B
      · have hc : LeftCall (Rule g.prods) A B := ⟨rhs, hR⟩
        have hlt : below g B < below g A := by
          refine countP_lt ?_ ?_
          · intro p _ hp
            simp only [decide_eq_true_eq] at hp ⊢
            obtain ⟨C, h1, h2⟩ := hp
            exact ⟨B, hc, .head h1 h2⟩
          · obtain ⟨p, hp, hpn⟩ := hdef
            refine ⟨p, hp, ?_, ?_⟩
            · simp only [decide_eq_false_iff_not]
              rw [hpn]
              exact hg B (.tail .refl hc)
            · simp only [decide_eq_true_eq]
              exact ⟨B, hc, hpn ▸ .refl⟩
        have := ih (n - 1) (by omega) B (by omega) fun C hC => hg C (.head hc hC)
        exact shallow_mono this (by omega)
      · intro B' hB' hd
        cases hB'
        exact absurd hd hdef

theorem firstOfSymbol_flag (h : GOk g) {d : Nat} {set set' : List Sym} {X : Sym} {f : Bool} (hs : Sorted set)
    (hX : X ≠ .epsilon) (hr : firstOfSymbol g d set X = .ok (set', f)) : f = false ∧ Sorted set' := by
  obtain ⟨h1, h2⟩ := firstOfSymbol_spec h d set X hs hX
  by_cases hok : OkAt g d X
  · obtain ⟨set'', k1, k2, _⟩ := h1 hok
    rw [hr] at k1; cases k1
    exact ⟨rfl, k2⟩
  · rcases h2 hok with k | ⟨k, _⟩ <;> rw [hr] at k <;> cases k

theorem first_shallow (h : GOk g) : ∀ (d : Nat) (set : List Sym) (X : Sym), Sorted set → X ≠ .epsilon →
    Shallow g d X → firstOfSymbol g d set X ≠ .error .stackOverflow := by
  intro d
  induction d with
  | zero => intro _ _ _ _ hs; exact hs.elim
  | succ d ih =>
    intro set X hs hX hsh
    unfold firstOfSymbol
    cases hn : X.asNonTerminal with
    | none => simp
    | some A =>
      have := asNonTerminal_some hn; subst this
      simp only
      cases hl : g.productionIter A with
      | error e =>
        unfold productionIter at hl
        cases hm : mget A g.nameMap with
        | none => simp only [hm, Except.error.injEq] at hl; subst hl; simp [bind, Except.bind]
        | some l => simp [hm] at hl
      | ok l =>
        obtain ⟨_, _, hmem⟩ := h.iter_ok hl
        have hdef := h.iter_iff.mp ⟨l, hl⟩
        simp only [bind, Except.bind]
        have main : ∀ (l' : List Nat) (set : List Sym) (f : Bool), Sorted set → (∀ q ∈ l', q ∈ l) →
            firstProds g (firstOfSymbol g d) l' set f ≠ .error .stackOverflow := by
          intro l'
          induction l' with
          | nil => intro set f _ _; simp [firstProds]
          | cons q l' ih' =>
            intro set f hs hq
            obtain ⟨p, hp, hpn⟩ := (hmem q).mp (hq q (by simp))
            have hpm := List.mem_of_getElem? hp
            simp only [firstProds, h.prodAt_of hp]
            cases hb : p.inputs with
            | nil => exact absurd hb (h.body p hpm)
            | cons Y rhs =>
              have hY : Y ≠ .epsilon := by
                rintro rfl
                exact h.noEps p hpm (by rw [hb]; simp)
              have hno := ih set Y hs hY (hsh A rfl hdef Y rhs ⟨p, hpm, hpn, hb⟩)
              cases hr : firstOfSymbol g d set Y with
              | error e =>
                simp only [firstInputs, hr, bind, Except.bind]
                intro he
                cases he
                exact hno hr
              | ok r =>
                obtain ⟨set', f'⟩ := r
                obtain ⟨rfl, hs'⟩ := firstOfSymbol_flag h hs hY hr
                simp only [firstInputs, hr, bind, Except.bind, Bool.false_eq_true, if_false, pure, Except.pure]
                exact ih' set' f hs' fun q hq' => hq q (by simp [hq'])
        exact main l set false hs fun _ h => h

end Grammar

namespace ItemSet
variable {g : Grammar} {d : Nat}

/-- What goes wrong at an item. -/
inductive Fails (g : Grammar) (d : Nat) (it : Item) (la : Nat) : Err → Prop
  | undefined {B} : dotName g it = some B → (∀ p ∈ g.prods, p.name ≠ B) → Fails g d it la .undefinedNonTerminal
  | first {B t e} : dotName g it = some B → g.tokens[la]? = some t → first g d (beta g it ++ [t]) = .error e → Fails g d it la e

theorem closureAdds_fails (h : GOk g) {set : ItemSet} {e : Err} (hw : WFSet set)
    (hla : ∀ it la, Has set it la → la < g.tokens.length)
    (he : closureAdds g d set = .error e) : ∃ it la, Has set it la ∧ Fails g d it la e := by
  unfold closureAdds at he
  obtain ⟨⟨it, las⟩, hm, he⟩ := flatMapRes_error he
  cases hd : dotName g it with
  | none => simp [hd] at he
  | some B =>
    simp only [hd] at he
    cases hl : g.productionIter B with
    | error e' =>
      have hun : ∀ p ∈ g.prods, p.name ≠ B := by
        intro p hp hn
        obtain ⟨l, hl'⟩ := h.iter_iff.mpr ⟨p, hp, hn⟩
        rw [hl] at hl'; cases hl'
      simp only [h.iter_err hun, bind, Except.bind, Except.error.injEq] at he
      subst he
      obtain ⟨la, hla⟩ := List.exists_mem_of_ne_nil las (hw.las it las hm).1
      exact ⟨it, la, ⟨las, hm, hla⟩, .undefined hd hun⟩
    | ok l =>
      simp only [hl, bind, Except.bind] at he
      obtain ⟨q, _, he⟩ := flatMapRes_error he
      obtain ⟨la, hm', he⟩ := flatMapRes_error he
      have hh : Has set it la := ⟨las, hm, hm'⟩
      refine ⟨it, la, hh, ?_⟩
      obtain ⟨t, ht⟩ : ∃ t, g.tokens[la]? = some t := ⟨_, List.getElem?_eq_getElem (hla it la hh)⟩
      refine .first hd ht ?_
      have hno : ¬ OkAt g d (nextSym g it t) := by
        intro hok
        obtain ⟨adds, ha⟩ := (addsFor_spec h (p := q)).2.1 t ht hok
        rw [ha] at he; cases he
      obtain ⟨rest, hrest⟩ := beta_cons g it t
      have hX : nextSym g it t ≠ .epsilon := by
        intro he
        exact beta_ne_eps h (List.mem_of_getElem? ht) (it := it) (by rw [hrest, he]; simp)
      unfold addsFor getToken at he
      simp only [ht] at he
      rw [hrest] at he ⊢
      rcases (first_spec h d (nextSym g it t) rest hX).2 hno with k | ⟨k, _⟩
      · rw [k] at he ⊢
        cases he; rfl
      · rw [k] at he ⊢
        cases he; rfl

theorem closureLoop_fails (h : GOk g) {e : Err} (hf : e ≠ .outOfFuel) : ∀ (fuel : Nat) (set : ItemSet), WFSet set →
    (∀ it la, Has set it la → la < g.tokens.length) →
    closureLoop g d fuel set = .error e → ∃ it la, Clo g (Has set) it la ∧ Fails g d it la e
  | fuel, set, hw, hla, he => by
    unfold closureLoop at he
    cases ha : closureAdds g d set with
    | error e' =>
      simp only [ha, bind, Except.bind, Except.error.injEq] at he
      subst he
      obtain ⟨it, la, h1, h2⟩ := closureAdds_fails h hw hla ha
      exact ⟨it, la, .base h1, h2⟩
    | ok adds =>
      obtain ⟨k1, k2, k3, k4⟩ := addFold_spec adds set false hw
      simp only [ha, bind, Except.bind] at he
      cases hflag : (adds.foldl addOne (set, false)).2 with
      | false => simp [hflag, pure, Except.pure] at he
      | true =>
        simp only [hflag, if_true] at he
        cases fuel with
        | zero => simp only [Except.error.injEq] at he; exact absurd he.symm hf
        | succ fuel =>
          have hsub : ∀ it la, Has (adds.foldl addOne (set, false)).1 it la → Clo g (Has set) it la := by
            intro it la hh
            rcases (k2 it la).mp hh with hh | hh
            · exact .base hh
            · obtain ⟨it', la', q, b, h1, h2, h3⟩ := (closureAdds_mem h ha _).mp hh
              cases h3
              exact .step (.base h1) h2
          have hla' : ∀ it la, Has (adds.foldl addOne (set, false)).1 it la → la < g.tokens.length := by
            intro it la hh
            rcases (k2 it la).mp hh with hh | hh
            · exact hla it la hh
            · obtain ⟨it', la', q, b, h1, h2, h3⟩ := (closureAdds_mem h ha _).mp hh
              cases h3
              exact (asks_range h2).2
          obtain ⟨it, la, h1, h2⟩ := closureLoop_fails h hf fuel _ k1 hla' he
          exact ⟨it, la, clo_mono hsub h1, h2⟩

theorem closure_fails (h : GOk g) {e : Err} {set : ItemSet} (hw : WFSet set)
    (hla : ∀ it la, Has set it la → la < g.tokens.length) (he : closure g d set = .error e) :
    ∃ it la, Clo g (Has set) it la ∧ Fails g d it la e := by
  refine closureLoop_fails h ?_ _ set hw hla he
  rintro rfl
  rcases (closure_spec h d hw).2.1 _ he with ⟨h1, _⟩ | h1 | h1 <;> cases h1

/-- Something goes wrong at an item of the collection. -/
theorem items_fails (h : GOk g) {e : Err} (he : items g d = .error e) :
    ∃ I it la, Reach g I ∧ I it la ∧ Fails g d it la e := by
  rcases (items_spec h d).2.1 e he with hc | ⟨s, x, hw, hr, hgo⟩
  · have hla : ∀ it la, Has initial it la → la < g.tokens.length := by
      intro it la hh
      rw [has_initial] at hh
      rw [hh.2]; exact tok_pos h
    obtain ⟨it, la, h1, h2⟩ := closure_fails h wf_initial hla hc
    rw [has_initial] at h1
    exact ⟨_, it, la, .init, h1, h2⟩
  · obtain ⟨w1, w2⟩ := advance_spec h x (set := s)
    have heq : Has (advance g x s) = Advanced g (Has s) x := by funext it la; exact propext (w2 it la)
    have hla : ∀ it la, Has (advance g x s) it la → la < g.tokens.length := by
      intro it la hh
      rw [heq] at hh
      exact (adv_rng (reach_rng h hr) hh).2
    obtain ⟨it, la, h1, h2⟩ := closure_fails h w1 hla hgo
    rw [heq] at h1
    exact ⟨_, it, la, .goto hr (clo_ne.mp ⟨it, la, h1⟩), h1, h2⟩

/-! ## items of rules that can be reached -/

/-- The production of the item can be reached. -/
def Live (g : Grammar) (it : Item) : Prop := ∃ p, g.prods[it.1]? = some p ∧ Uses (Rule g.prods) g.augName p.name

theorem clo_live {I : Item → Nat → Prop} (hI : ∀ it la, I it la → Live g it) {it : Item} {la : Nat}
    (h : Clo g I it la) : Live g it := by
  induction h with
  | base h => exact hI _ _ h
  | step _ ha ih =>
    obtain ⟨p, B, p', t, tb, h1, h2, h3, h4, _⟩ := ha
    obtain ⟨p0, k1, k2⟩ := ih
    rw [h1] at k1; cases k1
    exact ⟨p', h3, h4 ▸ .tail k2 ⟨p, List.mem_of_getElem? h1, rfl, rfl⟩ (List.mem_of_getElem? h2)⟩

theorem adv_live {I : Item → Nat → Prop} (hI : ∀ it la, I it la → Live g it) {X : Sym} {it : Item} {la : Nat}
    (h : Advanced g I X it la) : Live g it := by
  obtain ⟨d, p, _, h2, _, _⟩ := h
  exact hI (it.1, d) la h2

theorem reach_live (h : GOk g) {I : Item → Nat → Prop} (hr : Reach g I) : ∀ it la, I it la → Live g it := by
  induction hr with
  | init =>
    refine fun it la => clo_live ?_
    rintro it la ⟨rfl, rfl⟩
    obtain ⟨S, hS⟩ := h.start
    exact ⟨_, hS, .refl⟩
  | goto _ _ ih => exact fun it la => clo_live fun it la => adv_live ih

/-- The symbol whose FIRST is asked for: a terminal, or a nonterminal that follows a nonterminal. -/
theorem nextSym_cases (h : GOk g) {it : Item} {B : Str} (hB : dotName g it = some B) (hl : Live g it) {la : Nat} {t : Sym}
    (ht : g.tokens[la]? = some t) (hla : TermLa g la) :
    Uses (Rule g.prods) g.augName B ∧
    ((∀ A, nextSym g it t ≠ .nonTerm A) ∨
      ∃ A, nextSym g it t = .nonTerm A ∧ Follows (Rule g.prods) g.augName A) := by
  obtain ⟨p, hp, hi⟩ := (dotName_iff h).mp hB
  obtain ⟨p', hp', hu⟩ := hl
  rw [hp] at hp'; cases hp'
  have hR : Rule g.prods p.name p.inputs := ⟨p, List.mem_of_getElem? hp, rfl, rfl⟩
  refine ⟨.tail hu hR (List.mem_of_getElem? hi), ?_⟩
  obtain ⟨rest, hrest⟩ := beta_cons g it t
  unfold beta at hrest
  rw [h.prodAt_of hp] at hrest
  obtain ⟨t', ht', hnt⟩ := hla
  rw [ht] at ht'; cases ht'
  cases hn : p.inputs[it.2 + 1]? with
  | none =>
    rw [List.drop_eq_nil_of_le (by simpa using hn)] at hrest
    simp only [List.nil_append, List.cons.injEq] at hrest
    rw [← hrest.1]
    exact .inl hnt
  | some Y =>
    obtain ⟨hlt, hY⟩ := List.getElem?_eq_some_iff.mp hn
    obtain ⟨hlt', hY'⟩ := List.getElem?_eq_some_iff.mp hi
    have hdrop := List.drop_eq_getElem_cons hlt
    rw [hdrop, hY] at hrest
    simp only [List.cons_append, List.cons.injEq] at hrest
    rw [← hrest.1]
    by_cases hnY : ∃ A, Y = .nonTerm A
    · obtain ⟨A, rfl⟩ := hnY
      refine .inr ⟨A, rfl, p.name, p.inputs.take it.2, B, p.inputs.drop (it.2 + 2), hu, ?_⟩
      have : p.inputs.take it.2 ++ .nonTerm B :: .nonTerm A :: p.inputs.drop (it.2 + 2) = p.inputs := by
        conv_rhs => rw [← List.take_append_drop it.2 p.inputs, List.drop_eq_getElem_cons hlt', hY', hdrop, hY]
      rw [this]; exact hR
    · rw [not_exists] at hnY
      exact .inl hnY

theorem okAt_of (hb : Buildable (Rule g.prods) g.augName) {A : Str} (hA : Follows (Rule g.prods) g.augName A) :
    OkAt g (Lalr.depthOf g) (.nonTerm A) := by
  refine okAt_below A _ (below_le A) fun B hB => ⟨?_, hb.first A B hA hB⟩
  obtain ⟨rhs, p, hp, hn, _⟩ := hb.defined B (hA.uses.trans hB.uses)
  exact ⟨p, hp, hn⟩

theorem ready_of_buildable (h : GOk g) (hb : Buildable (Rule g.prods) g.augName) {it : Item} {la : Nat}
    (hla : TermLa g la) (hl : Live g it) : Ready g (Lalr.depthOf g) it la := by
  intro B hB
  obtain ⟨t, ht, hnt⟩ := hla
  obtain ⟨h1, h2⟩ := nextSym_cases h hB hl ht ⟨t, ht, hnt⟩
  obtain ⟨rhs, p, hp, hn, _⟩ := hb.defined B h1
  refine ⟨⟨p, hp, hn⟩, t, ht, ?_⟩
  rcases h2 with h2 | ⟨A, h2, h3⟩
  · exact okAt_term h2
  · rw [h2]; exact okAt_of hb h3

/-- Every production that can be reached is in some set, with the dot at any place. -/
theorem live_item (h : GOk g) {d : Nat} {lr : List ItemSet} (hlr : items g d = .ok lr) {A : Str}
    (hA : Uses (Rule g.prods) g.augName A) : ∀ q p, g.prods[q]? = some p → p.name = A → ∀ n, n ≤ p.inputs.length →
    ∃ I la, Reach g I ∧ I (q, n) la := by
  obtain ⟨i0, hi0, hres⟩ := (items_spec h d).1 lr hlr
  have hready : ∀ {I it la}, Reach g I → I it la → Ready g d it la := by
    intro I it la hI hh
    obtain ⟨s, hs, rfl⟩ := hres.complete h hi0 hI
    exact hres.ready h hi0 hs hh
  have hdots : ∀ q p, g.prods[q]? = some p → (∃ I la, Reach g I ∧ I (q, 0) la) → ∀ n, n ≤ p.inputs.length →
      ∃ I la, Reach g I ∧ I (q, n) la := by
    intro q p hp h0 n
    induction n with
    | zero => exact fun _ => h0
    | succ n ih =>
      intro hn
      obtain ⟨I, la, hI, hh⟩ := ih (by omega)
      have ha : Advanced g I p.inputs[n] (q, n + 1) la :=
        ⟨n, p, rfl, hh, hp, List.getElem?_eq_getElem (by omega)⟩
      exact ⟨_, la, .goto hI ⟨_, _, ha⟩, .base ha⟩
  induction hA with
  | refl =>
    intro q p hp hn
    refine hdots q p hp ?_
    have := h.aug q p hp hn
    subst this
    exact ⟨_, 0, .init, .base ⟨rfl, rfl⟩⟩
  | @tail B C rhs hu hR hm ih =>
    intro q p hp hn
    refine hdots q p hp ?_
    obtain ⟨p0, hp0, hn0, rfl⟩ := hR
    obtain ⟨q0, hq0⟩ := List.getElem?_of_mem hp0
    obtain ⟨n, hnn⟩ := List.getElem?_of_mem hm
    have hlt := (List.getElem?_eq_some_iff.mp hnn).1
    obtain ⟨I, la, hI, hh⟩ := ih q0 p0 hq0 hn0 n (by omega)
    obtain ⟨_, b, hb⟩ := (hready hI hh).served h (reach_termLa h hI _ _ hh) p0 C hq0 hnn
    have hask := hb q p hp hn
    refine ⟨I, b, hI, ?_⟩
    cases hI with
    | init => exact .step hh hask
    | goto => exact .step hh hask

theorem buildable_of_items (h : GOk g) {d : Nat} {lr : List ItemSet} (hlr : items g d = .ok lr) :
    Buildable (Rule g.prods) g.augName := by
  obtain ⟨i0, hi0, hres⟩ := (items_spec h d).1 lr hlr
  have hready : ∀ {I it la}, Reach g I → I it la → Ready g d it la := by
    intro I it la hI hh
    obtain ⟨s, hs, rfl⟩ := hres.complete h hi0 hI
    exact hres.ready h hi0 hs hh
  have hat : ∀ {A rhs n B}, Uses (Rule g.prods) g.augName A → Rule g.prods A rhs → rhs[n]? = some (.nonTerm B) →
      ∃ it la p, Ready g d it la ∧ it.2 = n ∧ g.prods[it.1]? = some p ∧ p.inputs = rhs ∧ dotName g it = some B := by
    rintro A rhs n B hA ⟨p, hp, hn, rfl⟩ hB
    obtain ⟨q, hq⟩ := List.getElem?_of_mem hp
    have hlt := (List.getElem?_eq_some_iff.mp hB).1
    obtain ⟨I, la, hI, hh⟩ := live_item h hlr hA q p hq hn n (by omega)
    exact ⟨(q, n), la, p, hready hI hh, rfl, hq, rfl, (dotName_iff h).mpr ⟨p, hq, hB⟩⟩
  refine ⟨fun A hA => ?_, fun C D hC hD => ?_⟩
  · cases hA with
    | refl =>
      obtain ⟨S, hS⟩ := h.start
      exact ⟨_, _, List.mem_of_getElem? hS, rfl, rfl⟩
    | tail hu hR hm =>
      obtain ⟨n, hn⟩ := List.getElem?_of_mem hm
      obtain ⟨it, la, p, hr, _, _, _, hB⟩ := hat hu hR hn
      obtain ⟨⟨p', hp', hn'⟩, _⟩ := hr _ hB
      exact ⟨_, p', hp', hn', rfl⟩
  · obtain ⟨A, l, B, r, hA, hR⟩ := hC
    obtain ⟨it, la, p, hr, hn, hp, hi, hB⟩ := hat (n := l.length) (B := B) hA hR (by simp)
    obtain ⟨_, t, ht, hok⟩ := hr _ hB
    have hnext : nextSym g it t = .nonTerm C := by
      obtain ⟨rest, hrest⟩ := beta_cons g it t
      unfold beta at hrest
      rw [h.prodAt_of hp, hi, hn] at hrest
      have : (l ++ Sym.nonTerm B :: .nonTerm C :: r).drop (l.length + 1) = .nonTerm C :: r := by
        rw [List.drop_append]; simp
      rw [this] at hrest
      simp only [List.cons_append, List.cons.injEq] at hrest
      exact hrest.1.symm
    rw [hnext] at hok
    obtain ⟨d', _, h'⟩ := okAt_reach hok hD
    exact okAt_not_rec d' h'

theorem items_ok_iff (h : GOk g) : (∃ lr, items g (Lalr.depthOf g) = .ok lr) ↔ Buildable (Rule g.prods) g.augName :=
  ⟨fun ⟨_, hlr⟩ => buildable_of_items h hlr, fun hb => (items_spec h _).2.2 fun _ hI it la hh =>
    ready_of_buildable h hb (reach_termLa h hI it la hh) (reach_live h hI it la hh)⟩

theorem items_error_undefined (h : GOk g) {d : Nat} (he : items g d = .error .undefinedNonTerminal) :
    ∃ A, Uses (Rule g.prods) g.augName A ∧ ∀ rhs, ¬ Rule g.prods A rhs := by
  obtain ⟨I, it, la, hI, hh, hf⟩ := items_fails h he
  have hl := reach_live h hI it la hh
  have hla := reach_termLa h hI it la hh
  cases hf with
  | undefined hB hun =>
    obtain ⟨t, ht, _⟩ := hla
    refine ⟨_, (nextSym_cases h hB hl ht (reach_termLa h hI it la hh)).1, ?_⟩
    rintro rhs ⟨p, hp, hn, _⟩
    exact hun p hp hn
  | @first B t _ hB ht hfirst =>
    obtain ⟨_, h2⟩ := nextSym_cases h hB hl ht hla
    obtain ⟨rest, hrest⟩ := beta_cons g it t
    have hX : nextSym g it t ≠ .epsilon := by
      intro he
      exact beta_ne_eps h (List.mem_of_getElem? ht) (it := it) (by rw [hrest, he]; simp)
    rw [hrest] at hfirst
    have hno : ¬ OkAt g d (nextSym g it t) := by
      intro hok
      obtain ⟨_, k, _⟩ := (first_spec h d (nextSym g it t) rest hX).1 hok
      rw [hfirst] at k; cases k
    rcases (first_spec h d (nextSym g it t) rest hX).2 hno with k | ⟨_, A, C, hA, hC, hun⟩
    · rw [hfirst] at k; cases k
    · rcases h2 with h2 | ⟨A', h2, h3⟩
      · exact absurd hA (h2 A)
      · rw [hA] at h2; cases h2
        refine ⟨C, h3.uses.trans hC.uses, ?_⟩
        rintro rhs ⟨p, hp, hn, _⟩
        exact hun p hp hn

theorem items_error_overflow (h : GOk g) (he : items g (Lalr.depthOf g) = .error .stackOverflow) :
    ∃ A B, Follows (Rule g.prods) g.augName A ∧ LeftReach (Rule g.prods) A B ∧ LeftRec (Rule g.prods) B := by
  obtain ⟨I, it, la, hI, hh, hf⟩ := items_fails h he
  have hl := reach_live h hI it la hh
  have hla := reach_termLa h hI it la hh
  cases hf with
  | @first B t _ hB ht hfirst =>
    obtain ⟨_, h2⟩ := nextSym_cases h hB hl ht hla
    obtain ⟨rest, hrest⟩ := beta_cons g it t
    have hX : nextSym g it t ≠ .epsilon := by
      intro he
      exact beta_ne_eps h (List.mem_of_getElem? ht) (it := it) (by rw [hrest, he]; simp)
    rw [hrest] at hfirst
    have hsym : firstOfSymbol g (Lalr.depthOf g) [] (nextSym g it t) = .error .stackOverflow := by
      unfold first firstLoop at hfirst
      obtain ⟨k1, k2⟩ := firstOfSymbol_spec h (Lalr.depthOf g) [] (nextSym g it t) (by simp [Sorted]) hX
      by_cases hok : OkAt g (Lalr.depthOf g) (nextSym g it t)
      · obtain ⟨_, k, _⟩ := (first_spec h (Lalr.depthOf g) (nextSym g it t) rest hX).1 hok
        unfold first firstLoop at k
        rw [hfirst] at k; cases k
      · rcases k2 hok with k | ⟨k, _⟩
        · exact k
        · rw [k] at hfirst; cases hfirst
    rcases h2 with h2 | ⟨A, h2, h3⟩
    · exfalso
      refine first_shallow h _ [] _ (by simp [Sorted]) hX ?_ hsym
      exact fun A hA => absurd hA (h2 A)
    · rw [h2] at hsym
      by_contra hno
      refine first_shallow h _ [] _ (by simp [Sorted]) (by simp) (shallow_below A _ (below_le A) fun B hB hrec => ?_) hsym
      exact hno ⟨A, B, h3, hB, hrec⟩

end ItemSet

namespace Lalr
open ItemSet
variable {g : Grammar} {lr lalr : List ItemSet} {m : List (Nat × Nat)}

theorem Merged.goto_build (hM : Merged g (depthOf g) lr lalr m) (h : GOk g)
    (hb : Buildable (Rule g.prods) g.augName) {s : ItemSet} (hs : s ∈ lalr) (x : Sym) : ∃ r, ItemSet.goto g (depthOf g) s x = .ok r := by
  have hl : ∀ it la, Has s it la → Live g it := by
    intro it la hh
    obtain ⟨t, ht, _, hh⟩ := (hM.has s hs it la).mp hh
    exact reach_live h (hM.lrreach t ht) it la hh
  exact (goto_spec h _ (hM.wf s hs) x).2.2 fun _ _ hc =>
    ready_of_buildable h hb (clo_termLa (fun _ _ => adv_termLa (hM.termLa h hs)) hc) (clo_live (fun _ _ => adv_live hl) hc)

end Lalr
end Verif
