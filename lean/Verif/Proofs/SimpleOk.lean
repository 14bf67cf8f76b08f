import Verif.Proofs.IdleOk
import Verif.Proofs.ParseOk
import Verif.Spec.Simple

/-! # Lemmas about simple grammars (for `Verif.Props.Simple`) -/

namespace Verif
open Verif.Spec

/-- `Simple`, of the numbered productions. -/
structure SimpleG (g : Grammar) : Prop where
  term : ∀ i p B, g.prods[i]? = some p → i ≠ 0 → p.inputs[0]? ≠ some (.nonTerm B)
  apart : ∀ i j p q, g.prods[i]? = some p → g.prods[j]? = some q → i ≠ 0 → j ≠ 0 → p.name = q.name → p.inputs[0]? = q.inputs[0]? → i = j

theorem Spec.Simple.grammar {ps : List Ast.Prod} {start : Ast.Prod} {g : Grammar} (h : Simple ps)
    (hf : ps.find? (fun p => p.isStart) = some start) (hg : Grammar.fromAst ps = .ok g) : SimpleG g := by
  have hk := prods_keys hf hg
  have hat : ∀ {i p}, g.prods[i]? = some p → i ≠ 0 → (rulesOf ps)[i - 1]? = some (p.name, p.inputs) := by
    intro i p hp hi
    obtain ⟨j, rfl⟩ := Nat.exists_eq_succ_of_ne_zero hi
    have : (g.prods.map fun p => (p.name, p.inputs))[j + 1]? = some (p.name, p.inputs) := by
      rw [List.getElem?_map, hp]; rfl
    rw [hk, List.getElem?_cons_succ] at this
    simpa using this
  constructor
  · intro i p B hp hi
    rw [← List.head?_eq_getElem?]
    exact h.1 _ _ (List.mem_of_getElem? (hat hp hi)) B
  · intro i j p q hp hq hi hj hn hh
    have h1 := hat hp hi
    have h2 := hat hq hj
    rw [← List.head?_eq_getElem?, ← List.head?_eq_getElem?] at hh
    obtain ⟨l1, e1⟩ := List.getElem?_eq_some_iff.1 h1
    obtain ⟨l2, e2⟩ := List.getElem?_eq_some_iff.1 h2
    have hpw := List.pairwise_iff_getElem.1 h.2
    rcases Nat.lt_trichotomy (i - 1) (j - 1) with hlt | heq | hlt
    · refine absurd hh ?_
      have := hpw _ _ l1 l2 hlt
      rw [e1, e2] at this
      exact this hn
    · omega
    · refine absurd hh.symm ?_
      have := hpw _ _ l2 l1 hlt
      rw [e1, e2] at this
      exact this hn.symm

/-- One item, and the productions of the nonterminal behind its dot. -/
def Lone (g : Grammar) (it0 : Item) (it : Item) : Prop :=
  it = it0 ∨ ∃ p q B, g.prods[it0.1]? = some p ∧ p.inputs[it0.2]? = some (.nonTerm B) ∧ it.2 = 0 ∧ g.prods[it.1]? = some q ∧
    q.name = B

section
variable {g : Grammar}

theorem other_ne (hok : Grammar.GOk g) {it0 it : Item} {p q : Production} {B : Str} (h1 : g.prods[it0.1]? = some p)
    (h2 : p.inputs[it0.2]? = some (.nonTerm B)) (h3 : g.prods[it.1]? = some q) (h4 : q.name = B) : it.1 ≠ 0 := by
  intro h
  obtain ⟨S, hS⟩ := hok.start
  rw [h, hS] at h3; cases h3
  subst h4
  exact hok.fresh p (List.mem_of_getElem? h1) (List.mem_of_getElem? h2)

theorem lone_clo (hok : Grammar.GOk g) (hs : SimpleG g) {I : Item → Nat → Prop} {it0 : Item} (h : ∀ it la, I it la → it = it0) {it : Item}
    {la : Nat} (hc : Clo g I it la) : Lone g it0 it := by
  induction hc with
  | base hI => exact .inl (h _ _ hI)
  | step _ ha ih =>
    obtain ⟨p, B, p', t, tb, a1, a2, a3, a4, -, -, -⟩ := ha
    rcases ih with rfl | ⟨r, q, C, h1, h2, h3, h4, h5⟩
    · exact .inr ⟨p, p', B, a1, a2, rfl, a3, a4⟩
    · rw [h3] at a2
      exact absurd a2 (hs.term _ _ _ a1 (other_ne hok h1 h2 h4 h5))

theorem lone_adv (hok : Grammar.GOk g) (hs : SimpleG g) {I : Item → Nat → Prop} {it0 : Item} (h : ∀ it la, I it la → Lone g it0 it)
    {X : Sym} {it it' : Item} {la la' : Nat} (ha : Advanced g I X it la) (ha' : Advanced g I X it' la') : it = it' := by
  obtain ⟨d, p, e1, e2, e3, e4⟩ := ha
  obtain ⟨d', p', e1', e2', e3', e4'⟩ := ha'
  have key : (it.1, d) = (it'.1, d') := by
    rcases h _ _ e2 with k | ⟨r, q, B, k1, k2, k3, k4, k5⟩ <;> rcases h _ _ e2' with m | ⟨r', q', B', m1, m2, m3, m4, m5⟩
    · rw [k, m]
    · exfalso
      simp only at m3 m4
      subst m3
      have k := congrArg Prod.fst k; have kd := congrArg Prod.snd ‹(it.1, d) = it0›
      simp only at k kd
      rw [← k, e3] at m1; cases m1
      rw [← kd, e4] at m2; cases m2
      exact hs.term _ _ _ e3' (other_ne hok (it0 := (it.1, d)) (it := it') e3 e4 m4 m5) e4'
    · exfalso
      simp only at k3 k4
      subst k3
      have m' := congrArg Prod.fst m; have md := congrArg Prod.snd m
      simp only at m' md
      rw [← m', e3'] at k1; cases k1
      rw [← md, e4'] at k2; cases k2
      exact hs.term _ _ _ e3 (other_ne hok (it0 := (it'.1, d')) (it := it) e3' e4' k4 k5) e4
    · simp only at k3 k4 m3 m4
      subst k3 m3
      have n1 := other_ne hok (it := it) k1 k2 k4 k5
      have n2 := other_ne hok (it := it') m1 m2 m4 m5
      rw [k1] at m1; cases m1
      rw [k2] at m2; cases m2
      rw [e3] at k4; cases k4
      rw [e3'] at m4; cases m4
      rw [hs.apart _ _ _ _ e3 e3' n1 n2 (k5.trans m5.symm) (e4.trans e4'.symm)]
  simp only [Prod.mk.injEq] at key
  exact Prod.ext key.1 (by rw [e1, e1', key.2])

theorem lone_reach (hok : Grammar.GOk g) (hs : SimpleG g) {I : Item → Nat → Prop} (h : Reach g I) : ∃ it0, ∀ it la, I it la → Lone g it0 it := by
  induction h with
  | init => exact ⟨(0, 0), fun it la hc => lone_clo hok hs (fun it la h => h.1) hc⟩
  | @goto I X _ hex ih =>
    obtain ⟨it0, h0⟩ := ih
    obtain ⟨it1, la1, h1⟩ := hex
    exact ⟨it1, fun it la hc => lone_clo hok hs (fun it la h => lone_adv hok hs h0 h h1) hc⟩

theorem lone_clash (hok : Grammar.GOk g) (hs : SimpleG g) : ¬ Clash g := by
  rintro ⟨I, it, it', k, hI, hne, hc, hc'⟩
  obtain ⟨it0, h0⟩ := lone_reach hok hs hI
  have hl : ∀ {it la}, LalrOf g I it la → Lone g it0 it := by
    rintro it la ⟨J, _, h2, h3⟩
    obtain ⟨la', h⟩ := (h2 it).2 ⟨la, h3⟩
    exact h0 _ _ h
  -- a claim: the item, and the symbol behind its dot, which is no nonterminal
  have claim : ∀ {it}, Claims g I it k → Lone g it0 it ∧ ∃ p, g.prods[it.1]? = some p ∧ (p.inputs[it.2]? = none ∨ 
      ∃ t, p.inputs[it.2]? = some t ∧ (∀ A, t ≠ .nonTerm A) ∧ g.tokens[k]? = some t) := by
    rintro it ⟨p, hp, ⟨h1, h2⟩ | ⟨la, t, h1, h2, h3, h4, _⟩⟩
    · exact ⟨hl h1, p, hp, .inl h2⟩
    · exact ⟨hl h1, p, hp, .inr ⟨t, h2, h3, h4⟩⟩
  obtain ⟨l, p, hp, c⟩ := claim hc
  obtain ⟨l', p', hp', c'⟩ := claim hc'
  -- the one item does not claim when there are others
  have kern : ∀ {it p}, it = it0 → g.prods[it.1]? = some p → (p.inputs[it.2]? = none ∨
      ∃ t, p.inputs[it.2]? = some t ∧ (∀ A, t ≠ .nonTerm A) ∧ g.tokens[k]? = some t) → ∀ r B, g.prods[it0.1]? = some r →
      r.inputs[it0.2]? = some (.nonTerm B) → False := by
    rintro it p rfl hp c r B hr hB
    rw [hp] at hr; cases hr
    rcases c with c | ⟨t, c, c2, _⟩
    · rw [hB] at c; cases c
    · rw [hB] at c; cases c; exact c2 _ rfl
  rcases l with e | ⟨r, q, B, k1, k2, k3, k4, k5⟩
  · rcases l' with e' | ⟨r', q', B', m1, m2, m3, m4, m5⟩
    · exact hne (e.trans e'.symm)
    · exact kern e hp c _ _ m1 m2
  · rcases l' with e' | ⟨r', q', B', m1, m2, m3, m4, m5⟩
    · exact kern e' hp' c' _ _ k1 k2
    · have n1 := other_ne hok k1 k2 k4 k5
      have n2 := other_ne hok m1 m2 m4 m5
      rw [k1] at m1; cases m1
      rw [k2] at m2; cases m2
      rw [hp] at k4; cases k4
      rw [hp'] at m4; cases m4
      rw [k3] at c; rw [m3] at c'
      have full : ∀ {i : Nat} {p : Production}, g.prods[i]? = some p → p.inputs[0]? ≠ none := by
        intro i p hp hn
        have := hok.body p (List.mem_of_getElem? hp)
        simp only [List.getElem?_eq_none_iff, Nat.le_zero, List.length_eq_zero_iff] at hn
        exact this hn
      rcases c with c | ⟨t, c, _, c3⟩
      · exact full hp c
      rcases c' with c' | ⟨t', c', _, c3'⟩
      · exact full hp' c'
      rw [c3] at c3'; cases c3'
      exact hne (Prod.ext (hs.apart _ _ _ _ hp hp' n1 n2 (k5.trans m5.symm) (c.trans c'.symm)) (k3.trans m3.symm))

end
end Verif
