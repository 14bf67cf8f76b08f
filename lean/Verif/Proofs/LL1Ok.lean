import Verif.Proofs.SimpleOk
import Verif.Proofs.RenameText
import Verif.Proofs.BuildOk
import Verif.Spec.LL1

/-! # Lemmas about LL(1) grammars (for `Verif.Props.LL1`) -/

namespace Verif
open Verif.Spec

/-- `LL1`, of the numbered productions. -/
structure LlR (R : Str → List Sym → Prop) (S : Str) (g : Grammar) : Prop where
  first : ∃ p, g.prods[0]? = some p ∧ p.inputs = [.nonTerm S]
  rule : ∀ i p, g.prods[i]? = some p → i ≠ 0 → R p.name p.inputs
  back : ∀ A r, R A r → ∃ i p, g.prods[i]? = some p ∧ i ≠ 0 ∧ p.name = A ∧ p.inputs = r
  apart : ∀ i j p q X Y t, g.prods[i]? = some p → g.prods[j]? = some q → i ≠ 0 → j ≠ 0 → p.name = q.name →
    Uses R S p.name → p.inputs[0]? = some X → q.inputs[0]? = some Y → Lead R X t → Lead R Y t → i = j

/-- `LL1` and `Begins`, of the numbered productions. -/
structure LlG (R : Str → List Sym → Prop) (S : Str) (g : Grammar) : Prop extends LlR R S g where
  lead : ∀ B, Uses R S B → ∃ t, Lead R (.nonTerm B) t

theorem cons_of_head {l : List Sym} {X : Sym} (h : l[0]? = some X) : ∃ r, l = X :: r := by
  cases l with
  | nil => cases h
  | cons Y r => simp only [List.getElem?_cons_zero, Option.some.injEq] at h; exact ⟨r, by rw [h]⟩

theorem llR {ps : List Ast.Prod} {start : Ast.Prod} {g : Grammar} (h : LL1 ps start.name)
    (hf : ps.find? (fun p => p.isStart) = some start) (hg : Grammar.fromAst ps = .ok g) : LlR (AstRule ps) start.name g := by
  have hk := prods_keys hf hg
  have hat : ∀ {i p}, g.prods[i]? = some p → i ≠ 0 → (rulesOf ps)[i - 1]? = some (p.name, p.inputs) := by
    intro i p hp hi
    obtain ⟨j, rfl⟩ := Nat.exists_eq_succ_of_ne_zero hi
    have : (g.prods.map fun p => (p.name, p.inputs))[j + 1]? = some (p.name, p.inputs) := by
      rw [List.getElem?_map, hp]; rfl
    rw [hk, List.getElem?_cons_succ] at this
    simpa using this
  constructor
  · exact ⟨_, Grammar.start_prod hg hf, rfl⟩
  · intro i p hp hi
    exact astRule_iff.2 (List.mem_of_getElem? (hat hp hi))
  · intro A r hR
    obtain ⟨j, hj⟩ := List.getElem?_of_mem (astRule_iff.1 hR)
    have : (g.prods.map fun p => (p.name, p.inputs))[j + 1]? = some (A, r) := by rw [hk, List.getElem?_cons_succ, hj]
    obtain ⟨p, k1, k2, k3⟩ := key_at.1 this
    exact ⟨j + 1, p, k1, Nat.succ_ne_zero _, k2, k3⟩
  · intro i j p q X Y t hp hq hi hj hn hu hX hY h1 h2
    obtain ⟨r, hr⟩ := cons_of_head hX
    obtain ⟨r', hr'⟩ := cons_of_head hY
    have s1 : Starts (AstRule ps) p.inputs t := by rw [hr]; exact h1.starts _
    have s2 : Starts (AstRule ps) q.inputs t := by rw [hr']; exact h2.starts _
    obtain ⟨l1, e1⟩ := List.getElem?_eq_some_iff.1 (hat hp hi)
    obtain ⟨l2, e2⟩ := List.getElem?_eq_some_iff.1 (hat hq hj)
    have hpw := List.pairwise_iff_getElem.1 h
    rcases Nat.lt_trichotomy (i - 1) (j - 1) with hlt | heq | hlt
    · have := hpw _ _ l1 l2 hlt
      rw [e1, e2] at this
      exact absurd s2 (this hn hu t s1)
    · omega
    · have := hpw _ _ l2 l1 hlt
      rw [e1, e2] at this
      exact absurd s1 (this hn.symm (hn ▸ hu) t s2)

theorem llG {ps : List Ast.Prod} {start : Ast.Prod} {g : Grammar} (he : Expressible ps) (h : LL1 ps start.name) (hb : Begins ps start.name)
    (hf : ps.find? (fun p => p.isStart) = some start) (hg : Grammar.fromAst ps = .ok g) : LlG (AstRule ps) start.name g := by
  have hne : ∀ A, ¬ AstRule ps A [] := by
    rintro A ⟨p, hp, b, hbb, -, hm⟩
    exact ((he p hp).2 b hbb).1 (List.map_eq_nil_iff.1 hm)
  refine ⟨llR h hf hg, fun B hB => ?_⟩
  obtain ⟨t, ht⟩ := hb B hB
  exact ⟨t, (starts_iff hne).1 ht⟩

section
variable {R : Str → List Sym → Prop} {S : Str} {g : Grammar}

theorem leftReach_head {A B : Str} (h : LeftReach R A B) : A = B ∨ ∃ C, LeftCall R A C ∧ LeftReach R C B := by
  induction h with
  | refl => exact .inl rfl
  | tail _ hc ih =>
    rcases ih with rfl | ⟨C, h1, h2⟩
    · exact .inr ⟨_, hc, .refl⟩
    · exact .inr ⟨C, h1, .tail h2 hc⟩

theorem lead_reach {A B : Str} {t : Sym} (h : LeftReach R B A) (ht : Lead R (.nonTerm A) t) : Lead R (.nonTerm B) t := by
  induction h with
  | refl => exact ht
  | tail _ hc ih =>
    obtain ⟨r, hr⟩ := hc
    exact ih (.nt hr ht)

/-- A nonterminal of an LL(1) grammar that can begin with a terminal is not left recursive. -/
theorem LlG.noRec (h : LlG R S g) {X t : Sym} (hl : Lead R X t) : ∀ A, X = .nonTerm A → Uses R S A → ¬ LeftRec R A := by
  induction hl with
  | term hn => exact fun A hA _ => absurd hA (hn A)
  | @nt A Y rhs t hR hY ih =>
    rintro _ ⟨⟩ hu ⟨B, ⟨rhs', hR'⟩, hreach⟩
    have hB : Lead R (.nonTerm B) t := lead_reach hreach (.nt hR hY)
    obtain ⟨i, p, p1, p2, p3, p4⟩ := h.back _ _ hR
    obtain ⟨j, q, q1, q2, q3, q4⟩ := h.back _ _ hR'
    have := h.apart i j p q Y (.nonTerm B) t p1 q1 p2 q2 (p3.trans q3.symm) (p3 ▸ hu) (by rw [p4]; rfl) (by rw [q4]; rfl) hY hB
    subst this
    rw [p1] at q1; cases q1
    rw [p4] at q4; cases q4
    refine ih B rfl (.tail hu hR (by simp)) ?_
    rcases leftReach_head hreach with rfl | ⟨C, h1, h2⟩
    · exact ⟨B, ⟨_, hR⟩, .refl⟩
    · exact ⟨C, h1, .tail h2 ⟨_, hR⟩⟩

/-- Production `q` is reached from `B` by first symbols of bodies. -/
inductive LeftIt (g : Grammar) : Str → Nat → Prop
  | base {B : Str} {i : Nat} {p : Production} : g.prods[i]? = some p → p.name = B → LeftIt g B i
  | cons {B : Str} {i : Nat} {p : Production} {C : Str} {q : Nat} : g.prods[i]? = some p → p.name = B → p.inputs[0]? = some (.nonTerm C) → LeftIt g C q → LeftIt g B q

theorem LeftIt.snoc {B C : Str} {q q' : Nat} {p p' : Production} (h : LeftIt g B q) (h1 : g.prods[q]? = some p)
    (h2 : p.inputs[0]? = some (.nonTerm C)) (h3 : g.prods[q']? = some p') (h4 : p'.name = C) : LeftIt g B q' := by
  induction h with
  | base k1 k2 =>
    rw [h1] at k1; cases k1
    exact .cons h1 k2 h2 (.base h3 h4)
  | cons k1 k2 k3 _ ih => exact .cons k1 k2 k3 (ih h1)

theorem not_zero (hok : Grammar.GOk g) {B : Str} (hB : B ≠ g.augName) {i : Nat} {p : Production} (h1 : g.prods[i]? = some p) (h2 : p.name = B) :
    i ≠ 0 := by
  rintro rfl
  obtain ⟨S, hS⟩ := hok.start
  rw [hS] at h1; cases h1
  exact hB h2.symm

theorem first_ne (hok : Grammar.GOk g) {i d : Nat} {p : Production} {C : Str} (h1 : g.prods[i]? = some p) (h2 : p.inputs[d]? = some (.nonTerm C)) :
    C ≠ g.augName := by
  rintro rfl
  exact hok.fresh p (List.mem_of_getElem? h1) (List.mem_of_getElem? h2)

theorem LeftIt.ne_zero (hok : Grammar.GOk g) {B : Str} {q : Nat} (h : LeftIt g B q) (hB : B ≠ g.augName) : q ≠ 0 := by
  induction h with
  | base h1 h2 => exact not_zero hok hB h1 h2
  | cons h1 _ h3 _ ih => exact ih (first_ne hok h1 h3)

theorem LeftIt.reach (hok : Grammar.GOk g) (hl : LlR R S g) {B : Str} {q : Nat} (h : LeftIt g B q) (hB : B ≠ g.augName) {p : Production}
    (hp : g.prods[q]? = some p) : LeftReach R B p.name := by
  induction h with
  | base h1 h2 => rw [h1] at hp; cases hp; rw [← h2]; exact .refl
  | cons h1 h2 h3 _ ih =>
    have := hl.rule _ _ h1 (not_zero hok hB h1 h2)
    obtain ⟨r, hr⟩ := cons_of_head h3
    rw [h2, hr] at this
    exact .head ⟨r, this⟩ (ih (first_ne hok h1 h3) hp)

theorem LeftIt.lead (hok : Grammar.GOk g) (hl : LlR R S g) {B : Str} {q : Nat} (h : LeftIt g B q) (hB : B ≠ g.augName) {p : Production}
    (hp : g.prods[q]? = some p) {X t : Sym} (hX : p.inputs[0]? = some X) (ht : Lead R X t) : Lead R (.nonTerm B) t := by
  refine lead_reach (h.reach hok hl hB hp) ?_
  have := hl.rule _ _ hp (h.ne_zero hok hB)
  obtain ⟨r, hr⟩ := cons_of_head hX
  rw [hr] at this
  exact .nt this ht

/-- `q'` is reached through the first symbol of `q`. -/
def Beneath (g : Grammar) (q q' : Nat) : Prop := ∃ p C, g.prods[q]? = some p ∧ p.inputs[0]? = some (.nonTerm C) ∧ LeftIt g C q'

theorem LeftIt.linear (hok : Grammar.GOk g) (hl : LlR R S g) {B : Str} {q q' : Nat} (h : LeftIt g B q) (h' : LeftIt g B q') (hB : B ≠ g.augName) (hU : Uses R S B)
    {p p' : Production} {X X' t : Sym} (hp : g.prods[q]? = some p) (hp' : g.prods[q']? = some p') (hX : p.inputs[0]? = some X)
    (hX' : p'.inputs[0]? = some X') (ht : Lead R X t) (ht' : Lead R X' t) : q = q' ∨ Beneath g q q' ∨ Beneath g q' q := by
  induction h with
  | @base B i r h1 h2 =>
    rw [h1] at hp; cases hp
    cases h' with
    | base k1 k2 =>
      rw [k1] at hp'; cases hp'
      exact .inl (hl.apart _ _ _ _ _ _ t h1 k1 (not_zero hok hB h1 h2) (not_zero hok hB k1 k2) (h2.trans k2.symm) (h2 ▸ hU) hX hX' ht ht')
    | cons k1 k2 k3 k4 =>
      have := hl.apart _ _ _ _ _ _ t h1 k1 (not_zero hok hB h1 h2) (not_zero hok hB k1 k2) (h2.trans k2.symm) (h2 ▸ hU) hX k3 ht
        (k4.lead hok hl (first_ne hok k1 k3) hp' hX' ht')
      subst this
      exact .inr (.inl ⟨_, _, k1, k3, k4⟩)
  | @cons B i r C q h1 h2 h3 h4 ih =>
    have hlead := h4.lead hok hl (first_ne hok h1 h3) hp hX ht
    cases h' with
    | base k1 k2 =>
      rw [k1] at hp'; cases hp'
      have := hl.apart _ _ _ _ _ _ t h1 k1 (not_zero hok hB h1 h2) (not_zero hok hB k1 k2) (h2.trans k2.symm) (h2 ▸ hU) h3 hX' hlead ht'
      subst this
      exact .inr (.inr ⟨_, _, h1, h3, h4⟩)
    | cons k1 k2 k3 k4 =>
      have := hl.apart _ _ _ _ _ _ t h1 k1 (not_zero hok hB h1 h2) (not_zero hok hB k1 k2) (h2.trans k2.symm) (h2 ▸ hU) h3 k3 hlead
        (k4.lead hok hl (first_ne hok k1 k3) hp' hX' ht')
      subst this
      rw [h1] at k1; cases k1
      rw [h3] at k3; cases k3
      exact ih k4 (first_ne hok h1 h3) (.tail (h2 ▸ hU) (hl.rule _ _ h1 (not_zero hok hB h1 h2)) (List.mem_of_getElem? h3)) hp

/-- No production is reached from a nonterminal and begins with it. -/
theorem LeftIt.noBack (hok : Grammar.GOk g) (hl : LlG R S g) {C : Str} {q : Nat} (h : LeftIt g C q) (hC : C ≠ g.augName) (hU : Uses R S C) {p : Production}
    (hp : g.prods[q]? = some p) (hX : p.inputs[0]? = some (.nonTerm C)) : False := by
  obtain ⟨t, ht⟩ := hl.lead C hU
  have hR := hl.rule _ _ hp (h.ne_zero hok hC)
  obtain ⟨r, hr⟩ := cons_of_head hX
  rw [hr] at hR
  refine hl.noRec ht C rfl hU ?_
  rcases leftReach_head (h.reach hok hl.toLlR hC hp) with e | ⟨D, h1, h2⟩
  · exact ⟨C, ⟨r, e ▸ hR⟩, .refl⟩
  · exact ⟨D, h1, .tail h2 ⟨r, hR⟩⟩

/-- One item, and the productions reached from the nonterminal behind its dot. -/
def Stem (g : Grammar) (it0 : Item) (it : Item) : Prop :=
  it = it0 ∨ ∃ p B, g.prods[it0.1]? = some p ∧ p.inputs[it0.2]? = some (.nonTerm B) ∧ it.2 = 0 ∧ LeftIt g B it.1

theorem stem_clo {I : Item → Nat → Prop} {it0 : Item} (h : ∀ it la, I it la → it = it0) {it : Item} {la : Nat}
    (hc : Clo g I it la) : Stem g it0 it := by
  induction hc with
  | base hI => exact .inl (h _ _ hI)
  | step _ ha ih =>
    obtain ⟨p, B, p', t, tb, a1, a2, a3, a4, -, -, -⟩ := ha
    rcases ih with rfl | ⟨r, C, h1, h2, h3, h4⟩
    · exact .inr ⟨p, B, a1, a2, rfl, .base a3 a4⟩
    · rw [h3] at a2
      exact .inr ⟨r, C, h1, h2, rfl, h4.snoc a1 a2 a3 a4⟩

/-- The production is that of the start, or its nonterminal can be reached. -/
def UsedAt (R : Str → List Sym → Prop) (S : Str) (g : Grammar) (i : Nat) : Prop := ∀ p, g.prods[i]? = some p → i = 0 ∨ Uses R S p.name

theorem UsedAt.next (hl : LlR R S g) {i d : Nat} (h : UsedAt R S g i) {p : Production} (hp : g.prods[i]? = some p) {B : Str}
    (hB : p.inputs[d]? = some (.nonTerm B)) : Uses R S B := by
  have hm := List.mem_of_getElem? hB
  by_cases hi : i = 0
  · subst hi
    obtain ⟨p0, h1, h2⟩ := hl.first
    rw [hp] at h1; cases h1
    rw [h2, List.mem_singleton, Sym.nonTerm.injEq] at hm
    rw [hm]; exact .refl
  · exact .tail ((h p hp).resolve_left hi) (hl.rule _ _ hp hi) hm

theorem LeftIt.used (hok : Grammar.GOk g) (hl : LlR R S g) {B : Str} {q : Nat} (h : LeftIt g B q) (hB : B ≠ g.augName) (hU : Uses R S B) :
    UsedAt R S g q := fun _ hp => .inr (hU.trans (h.reach hok hl hB hp).uses)

/-- Items with the same symbol behind the dot are the same. -/
theorem stem_next (hok : Grammar.GOk g) (hl : LlG R S g) {it0 it it' : Item} (hU : UsedAt R S g it0.1) (h : Stem g it0 it) (h' : Stem g it0 it') {p p' : Production}
    {X : Sym} (hp : g.prods[it.1]? = some p) (hX : p.inputs[it.2]? = some X) (hp' : g.prods[it'.1]? = some p')
    (hX' : p'.inputs[it'.2]? = some X) : it = it' := by
  have kern : ∀ {it it' : Item} {p p' : Production}, g.prods[it.1]? = some p → p.inputs[it.2]? = some X → g.prods[it'.1]? = some p' →
      p'.inputs[it'.2]? = some X → it = it0 →
      (∃ p B, g.prods[it0.1]? = some p ∧ p.inputs[it0.2]? = some (.nonTerm B) ∧ it'.2 = 0 ∧ LeftIt g B it'.1) → False := by
    rintro it it' p p' hp hX hp' hX' rfl ⟨r, B, k1, k2, k3, k4⟩
    rw [hp] at k1; cases k1
    rw [hX] at k2; cases k2
    rw [k3] at hX'
    exact k4.noBack hok hl (first_ne hok hp hX) (hU.next hl.toLlR hp hX) hp' hX'
  rcases h with e | h <;> rcases h' with e' | h'
  · exact e.trans e'.symm
  · exact (kern hp hX hp' hX' e h').elim
  · exact (kern hp' hX' hp hX e' h).elim
  · obtain ⟨r, B, k1, k2, k3, k4⟩ := h
    obtain ⟨r', B', m1, m2, m3, m4⟩ := h'
    rw [k1] at m1; cases m1
    rw [k2] at m2; cases m2
    rw [k3] at hX; rw [m3] at hX'
    have hB := first_ne hok k1 k2
    have hUB := hU.next hl.toLlR k1 k2
    have hUi := k4.used hok hl.toLlR hB hUB
    obtain ⟨t, ht⟩ : ∃ t, Lead R X t := by
      cases X with
      | nonTerm C => exact hl.lead C (hUi.next hl.toLlR hp hX)
      | _ => exact ⟨_, .term (by simp)⟩
    have hbel : ∀ {q q' : Nat} {p p' : Production}, UsedAt R S g q → g.prods[q]? = some p → g.prods[q']? = some p' → p.inputs[0]? = some X →
        p'.inputs[0]? = some X → ¬ Beneath g q q' := by
      rintro q q' p p' hu hp hp' hX hX' ⟨s, C, s1, s2, s3⟩
      rw [hp] at s1; cases s1
      rw [hX] at s2; cases s2
      exact s3.noBack hok hl (first_ne hok hp hX) (hu.next hl.toLlR hp hX) hp' hX'
    rcases k4.linear hok hl.toLlR m4 hB hUB hp hp' hX hX' ht ht with h | h | h
    · exact Prod.ext h (k3.trans m3.symm)
    · exact absurd h (hbel hUi hp hp' hX hX')
    · exact absurd h (hbel (m4.used hok hl.toLlR hB hUB) hp' hp hX' hX)

theorem stem_adv (hok : Grammar.GOk g) (hl : LlG R S g) {I : Item → Nat → Prop} {it0 : Item} (hU : UsedAt R S g it0.1) (h : ∀ it la, I it la → Stem g it0 it)
    {X : Sym} {it it' : Item} {la la' : Nat} (ha : Advanced g I X it la) (ha' : Advanced g I X it' la') : it = it' := by
  obtain ⟨d, p, e1, e2, e3, e4⟩ := ha
  obtain ⟨d', p', e1', e2', e3', e4'⟩ := ha'
  have key : (it.1, d) = (it'.1, d') := stem_next hok hl hU (h _ _ e2) (h _ _ e2') e3 e4 e3' e4'
  simp only [Prod.mk.injEq] at key
  exact Prod.ext key.1 (by rw [e1, e1', key.2])

theorem stem_used (hok : Grammar.GOk g) (hl : LlR R S g) {it0 it : Item} (hU : UsedAt R S g it0.1) (h : Stem g it0 it) : UsedAt R S g it.1 := by
  rcases h with rfl | ⟨p, B, h1, h2, -, h4⟩
  · exact hU
  · exact h4.used hok hl (first_ne hok h1 h2) (hU.next hl h1 h2)

theorem stem_reach (hok : Grammar.GOk g) (hl : LlG R S g) {I : Item → Nat → Prop} (h : Reach g I) :
    ∃ it0, UsedAt R S g it0.1 ∧ ∀ it la, I it la → Stem g it0 it := by
  induction h with
  | init => exact ⟨(0, 0), fun _ _ => .inl rfl, fun it la hc => stem_clo (fun it la h => h.1) hc⟩
  | @goto I X _ hex ih =>
    obtain ⟨it0, hU, h0⟩ := ih
    obtain ⟨it1, la1, h1⟩ := hex
    refine ⟨it1, ?_, fun it la hc => stem_clo (fun it la h => stem_adv hok hl hU h0 h h1) hc⟩
    obtain ⟨d, p, -, e2, -, -⟩ := h1
    have hu := stem_used hok hl.toLlR hU (h0 _ _ e2)
    exact hu

theorem stem_clash (hok : Grammar.GOk g) (hl : LlG R S g) : ¬ Clash g := by
  rintro ⟨I, it, it', k, hI, hne, ⟨p, hp, c⟩, ⟨p', hp', c'⟩⟩
  obtain ⟨it0, hU, h0⟩ := stem_reach hok hl hI
  have hst : ∀ {it la}, LalrOf g I it la → Stem g it0 it := by
    rintro it la ⟨J, _, h2, h3⟩
    obtain ⟨la', h⟩ := (h2 it).2 ⟨la, h3⟩
    exact h0 _ _ h
  have full : ∀ {i : Nat} {p : Production}, g.prods[i]? = some p → p.inputs[0]? ≠ none := by
    intro i p hp hn
    have := hok.body p (List.mem_of_getElem? hp)
    simp only [List.getElem?_eq_none_iff, Nat.le_zero, List.length_eq_zero_iff] at hn
    exact this hn
  -- a completed item is the only one
  have done : ∀ {it it' p}, Stem g it0 it → Stem g it0 it' → g.prods[it.1]? = some p → p.inputs[it.2]? = none → it = it' := by
    rintro it it' p h h' hp hn
    rcases h with rfl | ⟨_, _, _, _, h3, _⟩
    · rcases h' with rfl | ⟨r, B, k1, k2, _, _⟩
      · rfl
      · rw [hp] at k1; cases k1
        rw [hn] at k2; cases k2
    · rw [h3] at hn
      exact absurd hn (full hp)
  rcases c with ⟨c1, c2⟩ | ⟨la, t, c1, c2, _, c4, _⟩
  · rcases c' with ⟨d1, _⟩ | ⟨la', t', d1, _⟩ <;> exact hne (done (hst c1) (hst d1) hp c2)
  · rcases c' with ⟨d1, d2⟩ | ⟨la', t', d1, d2, _, d4, _⟩
    · exact hne (done (hst d1) (hst c1) hp' d2).symm
    · rw [c4] at d4; cases d4
      exact hne (stem_next hok hl hU (hst c1) (hst d1) hp c2 hp' d2)

/-- The leaves of a valid forest begin with what its first root can begin with. -/
theorem forest_lead (hok : Grammar.GOk g) (hl : LlR R S g) : ∀ (f : Forest) {X : Sym} {r : List Sym}, f.Valid g.prods → f.roots g.prods = X :: r →
    X ≠ .nonTerm g.augName → ∃ t u, f.yield = t :: u ∧ Lead R X t
  | .nil, _, _, _, h, _ => by simp [Forest.roots] at h
  | .leaf t rest, X, r, hv, h, _ => by
    simp only [Forest.roots, List.cons.injEq] at h
    obtain ⟨rfl, -⟩ := h
    exact ⟨t, rest.yield, rfl, .term fun A hA => by simpa [hA, IsTerm] using hv.1⟩
  | .node p kids rest, X, r, hv, h, hX => by
    obtain ⟨⟨prod, hp, hi⟩, hv1, -⟩ := hv
    simp only [Forest.roots, hp, Option.map_some, Option.getD_some, List.cons.injEq] at h
    obtain ⟨rfl, -⟩ := h
    have h0 : p ≠ 0 := not_zero hok (fun e => hX (by rw [e])) hp rfl
    cases hin : prod.inputs with
    | nil => exact absurd hin (hok.body prod (List.mem_of_getElem? hp))
    | cons Y l =>
      obtain ⟨t, u, h1, h2⟩ := forest_lead hok hl kids hv1 (hi.symm.trans hin) (by
        rintro rfl
        exact hok.fresh prod (List.mem_of_getElem? hp) (by rw [hin]; simp))
      exact ⟨t, u ++ rest.yield, by simp [Forest.yield, h1], .nt (hin ▸ hl.rule _ _ hp h0) h2⟩

/-- Valid forests of an LL(1) grammar with the same roots and leaves are the same. -/
theorem forest_unique (hok : Grammar.GOk g) (hl : LlR R S g) : ∀ (f f' : Forest) (u u' : List Sym), f.Valid g.prods → f'.Valid g.prods →
    f.roots g.prods = f'.roots g.prods → Sym.nonTerm g.augName ∉ f.roots g.prods → (∀ B, Sym.nonTerm B ∈ f.roots g.prods → Uses R S B) → f.yield ++ u = f'.yield ++ u' → f = f' ∧ u = u'
  | .nil, f', u, u', _, _, hr, _, _, hy => by
    cases f' with
    | nil => exact ⟨rfl, hy⟩
    | _ => simp [Forest.roots] at hr
  | .leaf t rest, f', u, u', hv, hv', hr, hn, hU, hy => by
    cases f' with
    | nil => simp [Forest.roots] at hr
    | leaf t' rest' =>
      simp only [Forest.roots, List.cons.injEq] at hr
      simp only [Forest.roots, List.mem_cons, not_or] at hn
      simp only [Forest.yield, List.cons_append, List.cons.injEq] at hy
      obtain ⟨rfl, h2⟩ := forest_unique hok hl rest rest' u u' hv.2 hv'.2 hr.2 hn.2
        (fun B hB => hU B (List.mem_cons_of_mem _ hB)) hy.2
      exact ⟨by rw [hr.1], h2⟩
    | node p' kids' rest' =>
      simp only [Forest.roots, List.cons.injEq] at hr
      have := hv.1
      simp [hr.1, IsTerm] at this
  | .node p kids rest, f', u, u', hv, hv', hr, hn, hU, hy => by
    cases f' with
    | nil => simp [Forest.roots] at hr
    | leaf t' rest' =>
      simp only [Forest.roots, List.cons.injEq] at hr
      have := hv'.1
      simp [← hr.1, IsTerm] at this
    | node p' kids' rest' =>
      obtain ⟨⟨prod, hp, hi⟩, hv1, hv2⟩ := hv
      obtain ⟨⟨prod', hp', hi'⟩, hv1', hv2'⟩ := hv'
      simp only [Forest.roots, hp, hp', Option.map_some, Option.getD_some, List.cons.injEq, Sym.nonTerm.injEq] at hr
      simp only [Forest.roots, hp, Option.map_some, Option.getD_some, List.mem_cons, Sym.nonTerm.injEq, not_or] at hn
      simp only [Forest.yield, List.append_assoc] at hy
      have h0 : p ≠ 0 := not_zero hok (fun e => hn.1 e.symm) hp rfl
      have h0' : p' ≠ 0 := not_zero hok (fun e => hn.1 (hr.1.trans e).symm) hp' rfl
      have hUp : Uses R S prod.name := hU _ (by simp [Forest.roots, hp])
      have hfr : ∀ {i : Nat} {q : Production} {Y : Sym} {l : List Sym}, g.prods[i]? = some q → q.inputs = Y :: l → Y ≠ .nonTerm g.augName := by
        rintro i q Y l hq hin rfl
        exact hok.fresh q (List.mem_of_getElem? hq) (by rw [hin]; simp)
      have hpp : p = p' := by
        cases hin : prod.inputs with
        | nil => exact absurd hin (hok.body prod (List.mem_of_getElem? hp))
        | cons Y l =>
          cases hin' : prod'.inputs with
          | nil => exact absurd hin' (hok.body prod' (List.mem_of_getElem? hp'))
          | cons Y' l' =>
            obtain ⟨t, v, k1, k2⟩ := forest_lead hok hl kids hv1 (hi.symm.trans hin) (hfr hp hin)
            obtain ⟨t', v', k1', k2'⟩ := forest_lead hok hl kids' hv1' (hi'.symm.trans hin') (hfr hp' hin')
            rw [k1, k1', List.cons_append, List.cons_append, List.cons.injEq] at hy
            rw [← hy.1] at k2'
            exact hl.apart p p' prod prod' Y Y' t hp hp' h0 h0' hr.1 hUp (by rw [hin]; rfl) (by rw [hin']; rfl) k2 k2'
      subst hpp
      rw [hp] at hp'; cases hp'
      obtain ⟨rfl, hy2⟩ := forest_unique hok hl kids kids' _ _ hv1 hv1' (hi.symm.trans hi')
        (by rw [← hi]; exact hok.fresh prod (List.mem_of_getElem? hp))
        (fun B hB => .tail hUp (hl.rule _ _ hp h0) (hi ▸ hB)) hy
      obtain ⟨rfl, hy3⟩ := forest_unique hok hl rest rest' u u' hv2 hv2' hr.2 hn.2
        (fun B hB => hU B (List.mem_cons_of_mem _ hB)) hy2
      exact ⟨rfl, hy3⟩

end
end Verif
