import Verif.Model.First
import Verif.Proofs.GrammarOk
import Mathlib.Tactic.ByContra

/-! FIRST. -/

namespace Verif
open Spec

theorem countP_lt {α : Type} {p q : α → Bool} : ∀ {l : List α}, (∀ a ∈ l, p a = true → q a = true) →
    (∃ a ∈ l, p a = false ∧ q a = true) → l.countP p < l.countP q
  | [], _, h => by simp at h
  | a :: l, h1, h2 => by
    have hle : l.countP p ≤ l.countP q := List.countP_mono_left fun x hx => h1 x (by simp [hx])
    have ha := h1 a (by simp)
    obtain ⟨b, hb, hb1, hb2⟩ := h2
    rcases List.mem_cons.mp hb with rfl | hb
    · simp only [List.countP_cons, hb1, hb2]; simp; omega
    · have := countP_lt (p := p) (q := q) (l := l) (fun x hx => h1 x (by simp [hx])) ⟨b, hb, hb1, hb2⟩
      simp only [List.countP_cons]
      by_cases hpa : p a = true
      · simp [hpa, ha hpa]; omega
      · simp [hpa]; split <;> omega

namespace Spec
variable {R : Str → List Sym → Prop}

theorem Steps.trans {α β γ : List Sym} (h1 : Steps R α β) (h2 : Steps R β γ) : Steps R α γ := by
  induction h2 with
  | refl => exact h1
  | tail _ h ih => exact .tail ih h

theorem Step.ctx {α β : List Sym} (l r : List Sym) (h : Step R α β) : Step R (l ++ α ++ r) (l ++ β ++ r) := by
  cases h with
  | @mk l' r' A rhs hR =>
    have := Step.mk (R := R) (l := l ++ l') (r := r' ++ r) hR
    simpa using this

theorem Steps.ctx {α β : List Sym} (l r : List Sym) (h : Steps R α β) : Steps R (l ++ α ++ r) (l ++ β ++ r) := by
  induction h with
  | refl => exact .refl
  | tail _ h ih => exact .tail ih (h.ctx l r)

theorem Steps.append {α β γ δ : List Sym} (h1 : Steps R α β) (h2 : Steps R γ δ) :
    Steps R (α ++ γ) (β ++ δ) := by
  have a := h1.ctx [] γ
  have b := h2.ctx β []
  simp only [List.nil_append, List.append_nil] at a b
  exact a.trans b

theorem Steps.rule {A : Str} {rhs : List Sym} (h : R A rhs) : Steps R [.nonTerm A] rhs := by
  have := Step.mk (R := R) (l := []) (r := []) h
  simp only [List.nil_append, List.append_nil] at this
  exact .tail .refl this

theorem Step.mono {R' : Str → List Sym → Prop} (hR : ∀ A r, R A r → R' A r) {α β : List Sym}
    (h : Step R α β) : Step R' α β := by
  cases h with
  | mk h => exact .mk (hR _ _ h)

theorem Steps.mono {R' : Str → List Sym → Prop} (hR : ∀ A r, R A r → R' A r) {α β : List Sym}
    (h : Steps R α β) : Steps R' α β := by
  induction h with
  | refl => exact .refl
  | tail _ h ih => exact .tail ih (h.mono hR)

/-- `t` is reached from `X` by following first symbols of bodies. -/
inductive Lead (R : Str → List Sym → Prop) : Sym → Sym → Prop
  | term {t} : (∀ A, t ≠ .nonTerm A) → Lead R t t
  | nt {A Y rhs t} : R A (Y :: rhs) → Lead R Y t → Lead R (.nonTerm A) t

theorem Lead.not_nonTerm {X t : Sym} (h : Lead R X t) : ∀ A, t ≠ .nonTerm A := by
  induction h with
  | term h => exact h
  | nt _ _ ih => exact ih

theorem Lead.starts {X t : Sym} (h : Lead R X t) (rest : List Sym) : Starts R (X :: rest) t := by
  refine ⟨h.not_nonTerm, ?_⟩
  induction h generalizing rest with
  | term h => exact ⟨rest, .refl⟩
  | @nt A Y rhs t hR _ ih =>
    obtain ⟨β, hβ⟩ := ih (rhs ++ rest)
    refine ⟨β, Steps.trans ?_ hβ⟩
    have := (Steps.rule hR).append (.refl (α := rest))
    simpa using this

theorem steps_lead (hne : ∀ A, ¬ R A []) {α γ : List Sym} (h : Steps R α γ) :
    ∀ {X rest}, α = X :: rest → ∃ Y γ', γ = Y :: γ' ∧ ∀ t, Lead R Y t → Lead R X t := by
  induction h with
  | refl => rintro X rest rfl; exact ⟨X, rest, rfl, fun _ h => h⟩
  | tail _ h ih =>
    intro X rest hα
    obtain ⟨Y, γ', rfl, hY⟩ := ih hα
    generalize hβ : Y :: γ' = β at h
    cases h with
    | @mk l r A rhs hR =>
      cases l with
      | nil =>
        simp only [List.nil_append, List.cons.injEq] at hβ
        obtain ⟨rfl, rfl⟩ := hβ
        cases rhs with
        | nil => exact absurd hR (hne A)
        | cons Z rhs => exact ⟨Z, rhs ++ γ', rfl, fun t ht => hY t (.nt hR ht)⟩
      | cons Z l =>
        simp only [List.cons_append, List.cons.injEq] at hβ
        obtain ⟨rfl, rfl⟩ := hβ
        exact ⟨Y, _, rfl, hY⟩

theorem starts_iff (hne : ∀ A, ¬ R A []) {X : Sym} {rest : List Sym} {t : Sym} :
    Starts R (X :: rest) t ↔ Lead R X t := by
  constructor
  · rintro ⟨hn, β, hβ⟩
    obtain ⟨Y, γ, he, hY⟩ := steps_lead hne hβ rfl
    simp only [List.cons.injEq] at he
    obtain ⟨rfl, rfl⟩ := he
    exact hY _ (.term hn)
  · exact fun h => h.starts rest

theorem LeftReach.head {A B C : Str} (h : LeftCall R A B) (h' : LeftReach R B C) : LeftReach R A C := by
  induction h' with
  | refl => exact .tail .refl h
  | tail _ hc ih => exact .tail ih hc

theorem LeftReach.trans {A B C : Str} (h : LeftReach R A B) (h' : LeftReach R B C) : LeftReach R A C := by
  induction h' with
  | refl => exact h
  | tail _ hc ih => exact .tail ih hc

end Spec

namespace Grammar
variable {g : Grammar}

theorem GOk.not_nil (h : GOk g) (A : Str) : ¬ Rule g.prods A [] := by
  rintro ⟨p, hp, _, he⟩
  exact h.body p hp he

theorem GOk.prodAt_of (_h : GOk g) {i : Nat} {p : Production} (hp : g.prods[i]? = some p) : g.prodAt i = p := by
  simp [prodAt, List.getD, hp]

theorem GOk.lead_ne_eps (h : GOk g) {X t : Sym} (hl : Lead (Rule g.prods) X t) (hX : X ≠ .epsilon) :
    t ≠ .epsilon := by
  induction hl with
  | term => exact hX
  | nt hR _ ih =>
    obtain ⟨p, hp, _, he⟩ := hR
    refine ih ?_
    rintro rfl
    exact h.noEps p hp (by rw [he]; simp)

theorem asNonTerminal_none {X : Sym} (h : X.asNonTerminal = none) : ∀ A, X ≠ .nonTerm A := by
  rintro A rfl; cases h

theorem asNonTerminal_some {X : Sym} {A : Str} (h : X.asNonTerminal = some A) : X = .nonTerm A := by
  cases X <;> simp [Sym.asNonTerminal] at h
  rw [h]

/-- Depth at which `first_of_symbol` returns. -/
def OkAt (g : Grammar) : Nat → Sym → Prop
  | 0, _ => False
  | d + 1, X => ∀ A, X = .nonTerm A → (∃ p ∈ g.prods, p.name = A) ∧
      ∀ Y rhs, Rule g.prods A (Y :: rhs) → OkAt g d Y

theorem okAt_mono : ∀ {d d' : Nat} {X : Sym}, OkAt g d X → d ≤ d' → OkAt g d' X
  | 0, _, _, h, _ => h.elim
  | d + 1, 0, _, _, hl => by omega
  | d + 1, d' + 1, X, h, hl => fun A hA =>
    ⟨(h A hA).1, fun Y rhs hR => okAt_mono ((h A hA).2 Y rhs hR) (by omega)⟩

/-- The three outcomes of `first_of_symbol`. -/
theorem firstOfSymbol_spec (h : GOk g) : ∀ (d : Nat) (set : List Sym) (X : Sym), Sorted set → X ≠ .epsilon →
    (OkAt g d X → ∃ set', firstOfSymbol g d set X = .ok (set', false) ∧ Sorted set' ∧
      ∀ x, x ∈ set' ↔ x ∈ set ∨ Lead (Rule g.prods) X x) ∧
    (¬ OkAt g d X → firstOfSymbol g d set X = .error .stackOverflow ∨
      (firstOfSymbol g d set X = .error .undefinedNonTerminal ∧
        ∃ A B, X = .nonTerm A ∧ LeftReach (Rule g.prods) A B ∧ ∀ p ∈ g.prods, p.name ≠ B)) := by
  intro d
  induction d with
  | zero => intro set X _ _; exact ⟨fun h => h.elim, fun _ => .inl rfl⟩
  | succ d ih =>
    intro set X hs hX
    cases hn : X.asNonTerminal with
    | none =>
      have hno := asNonTerminal_none hn
      refine ⟨fun _ => ⟨oinsert X set, ?_, sorted_oinsert hs, fun x => ?_⟩, fun hno' => ?_⟩
      · simp [firstOfSymbol, hn, hX]
      · rw [mem_oinsert, or_comm]
        refine or_congr_right ?_
        constructor
        · rintro rfl; exact .term hno
        · intro hl; cases hl with
          | term => rfl
          | nt => exact absurd rfl (hno _)
      · exact absurd (fun A hA => absurd hA (hno A)) hno'
    | some A =>
      have hXA := asNonTerminal_some hn
      subst hXA
      by_cases hdef : ∃ p ∈ g.prods, p.name = A
      rotate_left
      · refine ⟨fun hok => absurd (hok A rfl).1 hdef, fun _ => .inr ?_⟩
        have hdef' : ∀ p ∈ g.prods, p.name ≠ A := fun p hp hpn => hdef ⟨p, hp, hpn⟩
        refine ⟨by simp [firstOfSymbol, Sym.asNonTerminal, h.iter_err hdef', bind, Except.bind],
          A, A, rfl, .refl, hdef'⟩
      obtain ⟨l, hl⟩ := h.iter_iff.mpr hdef
      obtain ⟨_, _, hmem⟩ := h.iter_ok hl
      have hunf : firstOfSymbol g (d + 1) set (.nonTerm A) =
          firstProds g (firstOfSymbol g d) l set false := by
        simp [firstOfSymbol, Sym.asNonTerminal, hl, bind, Except.bind]
      rw [hunf]
      -- heads of the bodies
      have hhead : ∀ i ∈ l, ∃ Y rhs, (g.prodAt i).inputs = Y :: rhs ∧ Rule g.prods A (Y :: rhs) ∧ Y ≠ .epsilon := by
        intro i hi
        obtain ⟨p, hp, hpn⟩ := (hmem i).mp hi
        have hp' := List.mem_of_getElem? hp
        rw [h.prodAt_of hp]
        cases hin : p.inputs with
        | nil => exact absurd hin (h.body p hp')
        | cons Y rhs =>
          refine ⟨Y, rhs, rfl, ⟨p, hp', hpn, hin⟩, ?_⟩
          rintro rfl
          exact h.noEps p hp' (by rw [hin]; simp)
      have hall : ∀ Y rhs, Rule g.prods A (Y :: rhs) → ∃ i ∈ l, (g.prodAt i).inputs = Y :: rhs := by
        rintro Y rhs ⟨p, hp, hpn, hin⟩
        obtain ⟨i, hi, rfl⟩ := List.mem_iff_getElem.mp hp
        have := List.getElem?_eq_getElem hi
        exact ⟨i, (hmem i).mpr ⟨_, this, hpn⟩, by rw [h.prodAt_of this]; exact hin⟩
      -- the loop
      have loop : ∀ (l : List Nat) (set : List Sym), Sorted set →
          (∀ i ∈ l, ∃ Y rhs, (g.prodAt i).inputs = Y :: rhs ∧ Rule g.prods A (Y :: rhs) ∧ Y ≠ .epsilon) →
          ((∀ i ∈ l, ∀ Y rhs, (g.prodAt i).inputs = Y :: rhs → OkAt g d Y) →
            ∃ set', firstProds g (firstOfSymbol g d) l set false = .ok (set', false) ∧ Sorted set' ∧
              ∀ x, x ∈ set' ↔ x ∈ set ∨ ∃ i ∈ l, ∃ Y rhs, (g.prodAt i).inputs = Y :: rhs ∧
                Lead (Rule g.prods) Y x) ∧
          ((∃ i ∈ l, ∃ Y rhs, (g.prodAt i).inputs = Y :: rhs ∧ ¬ OkAt g d Y) →
            firstProds g (firstOfSymbol g d) l set false = .error .stackOverflow ∨
            (firstProds g (firstOfSymbol g d) l set false = .error .undefinedNonTerminal ∧
              ∃ B, LeftReach (Rule g.prods) A B ∧ ∀ p ∈ g.prods, p.name ≠ B)) := by
        intro l
        induction l with
        | nil =>
          intro set hs _
          exact ⟨fun _ => ⟨set, rfl, hs, by simp⟩, by simp⟩
        | cons i l ihl =>
          intro set hs hh
          obtain ⟨Y, rhs, hin, hR, hY⟩ := hh i (by simp)
          have hh' := fun j hj => hh j (List.mem_cons_of_mem i hj)
          by_cases hokY : OkAt g d Y
          · obtain ⟨set1, h1, h2, h3⟩ := (ih set Y hs hY).1 hokY
            have hstep : firstProds g (firstOfSymbol g d) (i :: l) set false =
                firstProds g (firstOfSymbol g d) l set1 false := by
              simp [firstProds, hin, firstInputs, h1, bind, Except.bind, pure, Except.pure]
            rw [hstep]
            obtain ⟨g1, g2⟩ := ihl set1 h2 hh'
            refine ⟨fun hok => ?_, fun hbad => ?_⟩
            · obtain ⟨set', k1, k2, k3⟩ := g1 fun j hj => hok j (by simp [hj])
              refine ⟨set', k1, k2, fun x => ?_⟩
              rw [k3, h3]
              constructor
              · rintro ((hx | hx) | ⟨j, hj, hx⟩)
                · exact .inl hx
                · exact .inr ⟨i, by simp, Y, rhs, hin, hx⟩
                · exact .inr ⟨j, by simp [hj], hx⟩
              · rintro (hx | ⟨j, hj, Z, r, hZ, hx⟩)
                · exact .inl (.inl hx)
                · rcases List.mem_cons.mp hj with rfl | hj
                  · rw [hin] at hZ
                    simp only [List.cons.injEq] at hZ
                    obtain ⟨rfl, rfl⟩ := hZ
                    exact .inl (.inr hx)
                  · exact .inr ⟨j, hj, Z, r, hZ, hx⟩
            · refine g2 ?_
              obtain ⟨j, hj, Z, r, hZ, hx⟩ := hbad
              rcases List.mem_cons.mp hj with rfl | hj
              · rw [hin] at hZ
                simp only [List.cons.injEq] at hZ
                obtain ⟨rfl, rfl⟩ := hZ
                exact absurd hokY hx
              · exact ⟨j, hj, Z, r, hZ, hx⟩
          · refine ⟨fun hok => absurd (hok i (by simp) Y rhs hin) hokY, fun _ => ?_⟩
            rcases (ih set Y hs hY).2 hokY with h1 | ⟨h1, A', B, rfl, hreach, hund⟩
            · left; simp [firstProds, hin, firstInputs, h1, bind, Except.bind]
            · right
              refine ⟨by simp [firstProds, hin, firstInputs, h1, bind, Except.bind], B, ?_, hund⟩
              exact LeftReach.head ⟨rhs, hR⟩ hreach
      obtain ⟨l1, l2⟩ := loop l set hs hhead
      refine ⟨fun hok => ?_, fun hbad => ?_⟩
      · obtain ⟨set', k1, k2, k3⟩ := l1 fun i hi Y rhs hin => by
          obtain ⟨Y', rhs', hin', hR, _⟩ := hhead i hi
          rw [hin] at hin'
          simp only [List.cons.injEq] at hin'
          obtain ⟨rfl, rfl⟩ := hin'
          exact (hok A rfl).2 Y rhs hR
        refine ⟨set', k1, k2, fun x => ?_⟩
        rw [k3]
        refine or_congr_right ?_
        constructor
        · rintro ⟨i, hi, Y, rhs, hin, hl⟩
          obtain ⟨Y', rhs', hin', hR, _⟩ := hhead i hi
          rw [hin] at hin'
          simp only [List.cons.injEq] at hin'
          obtain ⟨rfl, rfl⟩ := hin'
          exact .nt hR hl
        · intro hl
          cases hl with
          | term hn => exact absurd rfl (hn A)
          | nt hR hl =>
            obtain ⟨i, hi, hin⟩ := hall _ _ hR
            exact ⟨i, hi, _, _, hin, hl⟩
      · have hex : ∃ i ∈ l, ∃ Y rhs, (g.prodAt i).inputs = Y :: rhs ∧ ¬ OkAt g d Y := by
          by_contra hno
          refine hbad fun A' hA' => ?_
          cases hA'
          refine ⟨hdef, fun Y rhs hR => ?_⟩
          obtain ⟨i, hi, hin⟩ := hall Y rhs hR
          by_contra hnok
          exact hno ⟨i, hi, Y, rhs, hin, hnok⟩
        rcases l2 hex with h1 | ⟨h1, B, h2⟩
        · exact .inl h1
        · exact .inr ⟨h1, A, B, rfl, h2⟩

/-- Following leftmost symbols uses up depth. -/
theorem okAt_call {d : Nat} {A B : Str} (h : OkAt g d (.nonTerm A)) (hc : LeftCall (Rule g.prods) A B) :
    ∃ d', d' < d ∧ OkAt g d' (.nonTerm B) := by
  cases d with
  | zero => exact h.elim
  | succ d =>
    obtain ⟨rhs, hR⟩ := hc
    exact ⟨d, by omega, (h A rfl).2 _ _ hR⟩

theorem okAt_reach {d : Nat} {A B : Str} (h : OkAt g d (.nonTerm A)) (hr : LeftReach (Rule g.prods) A B) :
    ∃ d', d' ≤ d ∧ OkAt g d' (.nonTerm B) := by
  induction hr with
  | refl => exact ⟨d, Nat.le_refl d, h⟩
  | tail _ hc ih =>
    obtain ⟨d', h1, h2⟩ := ih
    obtain ⟨d'', h3, h4⟩ := okAt_call h2 hc
    exact ⟨d'', by omega, h4⟩

theorem okAt_not_rec : ∀ (d : Nat) {A : Str}, OkAt g d (.nonTerm A) → ¬ LeftRec (Rule g.prods) A := by
  intro d
  induction d using Nat.strongRecOn with
  | _ d ih =>
    rintro A h ⟨B, hc, hr⟩
    obtain ⟨d', h1, h2⟩ := okAt_call h hc
    obtain ⟨d'', h3, h4⟩ := okAt_reach h2 hr
    exact ih d'' (by omega) h4 ⟨B, hc, hr⟩

open Classical in
/-- Number of productions whose nonterminal is strictly below `A`. -/
noncomputable def below (g : Grammar) (A : Str) : Nat :=
  g.prods.countP fun p => decide (∃ B, LeftCall (Rule g.prods) A B ∧ LeftReach (Rule g.prods) B p.name)

theorem okAt_below (A : Str) (n : Nat) (hn : below g A ≤ n)
    (hg : ∀ B, LeftReach (Rule g.prods) A B → (∃ p ∈ g.prods, p.name = B) ∧ ¬ LeftRec (Rule g.prods) B) :
    OkAt g (n + 2) (.nonTerm A) := by
  induction n using Nat.strongRecOn generalizing A with
  | _ n ih =>
    intro A' hA'
    cases hA'
    refine ⟨(hg A .refl).1, fun Y rhs hR => ?_⟩
    cases hY : Y.asNonTerminal with
    | none =>
      have := asNonTerminal_none hY
      exact fun B hB => absurd hB (this B)
    | some B =>
      have := asNonTerminal_some hY
      subst this
      have hc : LeftCall (Rule g.prods) A B := ⟨rhs, hR⟩
      have hlt : below g B < below g A := by
        refine countP_lt ?_ ?_
        · intro p _ hp
          simp only [decide_eq_true_eq] at hp ⊢
          obtain ⟨C, h1, h2⟩ := hp
          exact ⟨B, hc, .head h1 h2⟩
        · obtain ⟨p, hp, hpn⟩ := (hg B (.tail .refl hc)).1
          refine ⟨p, hp, ?_, ?_⟩
          · simp only [decide_eq_false_iff_not]
            rw [hpn]
            exact (hg B (.tail .refl hc)).2
          · simp only [decide_eq_true_eq]
            exact ⟨B, hc, hpn ▸ .refl⟩
      have := ih (n - 1) (by omega) B (by omega) fun C hC => hg C (.head hc hC)
      exact okAt_mono this (by omega)

theorem below_le (A : Str) : below g A ≤ g.prods.length := List.countP_le_length

/-- `first` on a non-empty sequence. -/
theorem first_spec (h : GOk g) (d : Nat) (X : Sym) (rest : List Sym) (hX : X ≠ .epsilon) :
    (OkAt g d X → ∃ set, first g d (X :: rest) = .ok set ∧ Sorted set ∧
      ∀ x, x ∈ set ↔ Lead (Rule g.prods) X x) ∧
    (¬ OkAt g d X → first g d (X :: rest) = .error .stackOverflow ∨
      (first g d (X :: rest) = .error .undefinedNonTerminal ∧
        ∃ A B, X = .nonTerm A ∧ LeftReach (Rule g.prods) A B ∧ ∀ p ∈ g.prods, p.name ≠ B)) := by
  have hs : Sorted ([] : List Sym) := by simp [Sorted]
  obtain ⟨h1, h2⟩ := firstOfSymbol_spec h d [] X hs hX
  refine ⟨fun hok => ?_, fun hbad => ?_⟩
  · obtain ⟨set, k1, k2, k3⟩ := h1 hok
    have hne : Sym.epsilon ∉ set := by
      intro hm
      rcases (k3 _).mp hm with hm | hm
      · simp at hm
      · exact h.lead_ne_eps hm hX rfl
    have hfil : set.filter (fun x => decide (x ≠ .epsilon)) = set := by
      rw [List.filter_eq_self]
      intro x hx
      simp only [decide_eq_true_eq]
      rintro rfl
      exact hne hx
    refine ⟨set, ?_, k2, fun x => (k3 x).trans (by simp)⟩
    simp only [first, firstLoop, k1, bind, Except.bind, hfil, hne, decide_false, pure, Except.pure]
    rfl
  · rcases h2 hbad with k | ⟨k, k'⟩
    · left; simp [first, firstLoop, k, bind, Except.bind]
    · right; exact ⟨by simp [first, firstLoop, k, bind, Except.bind], k'⟩

end Grammar
end Verif
