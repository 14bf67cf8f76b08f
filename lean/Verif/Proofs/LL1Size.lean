import Verif.Proofs.LL1Ok
import Verif.Proofs.SizesOk
import Verif.Proofs.TablesMore
import Verif.Proofs.Progress

/-! # Lemmas about the number of states of LL(1) grammars (for `Verif.Props.LL1Size`) -/

namespace Verif
open Verif.Spec

/-- The start, and every item with the dot behind a symbol. -/
def kernels (g : Grammar) : List Item :=
  (0, 0) :: (List.range g.prods.length).flatMap fun q => (List.range (g.prodAt q).inputs.length).map fun d => (q, d + 1)

theorem kernels_length (g : Grammar) : (kernels g).length = 1 + (g.prods.map fun p => p.inputs.length).sum := by
  unfold kernels
  rw [List.length_cons, List.length_flatMap, Nat.add_comm]
  simp only [List.length_map, List.length_range]
  congr 2
  apply List.ext_getElem
  · simp
  · intro i h1 h2
    simp only [List.getElem_map, List.getElem_range]
    have : i < g.prods.length := by simpa using h1
    simp [Grammar.prodAt, List.getD, List.getElem?_eq_getElem this]

theorem mem_kernels {g : Grammar} {q d : Nat} {p : Production} (hp : g.prods[q]? = some p) (hd : d < p.inputs.length) :
    (q, d + 1) ∈ kernels g := by
  have hi := (List.getElem?_eq_some_iff.mp hp).1
  simp only [kernels, List.mem_cons, List.mem_flatMap, List.mem_range, List.mem_map]
  refine .inr ⟨q, hi, d, ?_, rfl⟩
  simp only [Grammar.prodAt, List.getD, hp, Option.getD_some]
  omega

/-- `I` is the closure of one item. -/
def OneOf (g : Grammar) (I : Item → Nat → Prop) (it0 : Item) : Prop :=
  ∃ K : Item → Nat → Prop, I = Clo g K ∧ (∀ it la, K it la → it = it0) ∧ (∃ la, K it0 la) ∧ ∀ it la, K it la → ItemSet.TermLa g la

theorem oneOf_reach {R : Str → List Sym → Prop} {S : Str} {g : Grammar} (hok : Grammar.GOk g) (hl : LlG R S g) {I : Item → Nat → Prop} (h : Reach g I) :
    ∃ it0 ∈ kernels g, UsedAt R S g it0.1 ∧ OneOf g I it0 := by
  cases h with
  | init =>
    refine ⟨(0, 0), by simp [kernels], fun _ _ => .inl rfl, _, rfl, fun it la h => h.1, ⟨0, rfl, rfl⟩, ?_⟩
    rintro it la h
    exact ItemSet.reach_termLa hok .init it la (.base h)
  | @goto I X hI hex =>
    obtain ⟨it0, hU, h0⟩ := stem_reach hok hl hI
    obtain ⟨it1, la1, h1⟩ := hex
    refine ⟨it1, ?_, ?_, _, rfl, fun it la h => stem_adv hok hl hU h0 h h1, ⟨la1, h1⟩, fun it la h => ?_⟩
    · obtain ⟨d, p, e1, e2, e3, e4⟩ := h1
      have := mem_kernels e3 (List.getElem?_eq_some_iff.mp e4).1
      rwa [← e1] at this
    · obtain ⟨d, p, -, e2, -, -⟩ := h1
      have hu := stem_used hok hl.toLlR hU (h0 _ _ e2)
      exact hu
    · exact ItemSet.adv_termLa (ItemSet.reach_termLa hok hI) h

theorem oneOf_core {g : Grammar} (hok : Grammar.GOk g) {I J : Item → Nat → Prop} {it0 : Item} (h : OneOf g I it0) (h' : OneOf g J it0) :
    SameCore I J := by
  have key : ∀ {I J}, OneOf g I it0 → OneOf g J it0 → ∀ it, (∃ la, I it la) → ∃ la, J it la := by
    rintro I J ⟨K, rfl, k1, -, -⟩ ⟨L, rfl, -, l2, l3⟩ it ⟨la, h⟩
    refine Lalr.clo_core hok (fun it h => ?_) l3 h
    obtain ⟨la, h⟩ := h
    rw [k1 _ _ h]
    exact l2
  exact fun it => ⟨key h h' it, key h' h it⟩

theorem kernels_nodup (g : Grammar) : (kernels g).Nodup := by
  unfold kernels
  refine List.nodup_cons.2 ⟨by simp, List.nodup_flatMap.2 ⟨fun q _ => ?_, ?_⟩⟩
  · exact (List.nodup_map_iff_inj_on List.nodup_range).2 fun a _ b _ h => by simpa using h
  · refine List.nodup_range.imp ?_
    intro a b hab x h1 h2
    obtain ⟨_, -, rfl⟩ := List.mem_map.1 h1
    obtain ⟨_, -, h⟩ := List.mem_map.1 h2
    exact hab (by simp only [Prod.mk.injEq] at h; exact h.1.symm)

theorem mem_kernels_iff {g : Grammar} {k : Item} : k ∈ kernels g →
    k = (0, 0) ∨ ∃ q d p, k = (q, d + 1) ∧ g.prods[q]? = some p ∧ d < p.inputs.length := by
  simp only [kernels, List.mem_cons, List.mem_flatMap, List.mem_range, List.mem_map]
  rintro (h | ⟨q, hq, d, hd, rfl⟩)
  · exact .inl h
  · refine .inr ⟨q, d, g.prods[q], rfl, List.getElem?_eq_getElem hq, ?_⟩
    simpa [Grammar.prodAt, List.getD, List.getElem?_eq_getElem hq] using hd

/-- Different kernels have different cores. -/
theorem oneOf_inj {g : Grammar} {I J : Item → Nat → Prop} {k k' : Item} (hk : k ∈ kernels g) (hk' : k' ∈ kernels g) (h : OneOf g I k)
    (h' : OneOf g J k') (hc : SameCore I J) : k = k' := by
  have key : ∀ {I J k k'}, k ∈ kernels g → OneOf g I k → OneOf g J k' → SameCore I J → k = k' ∨ k = (0, 0) := by
    rintro I J k k' hk ⟨K, rfl, -, ⟨la, k2⟩, -⟩ ⟨L, rfl, l1, -, -⟩ hc
    obtain ⟨la', h⟩ := (hc k).1 ⟨la, .base k2⟩
    generalize k = it at h hk
    cases h with
    | base h => exact .inl (l1 _ _ h)
    | step _ _ =>
      rcases mem_kernels_iff hk with h | ⟨_, _, _, h, -⟩
      · exact .inr h
      · simp at h
  rcases key hk h h' hc with h1 | h1
  · exact h1
  · rcases key hk' h' h (fun it => (hc it).symm) with h2 | h2
    · exact h2.symm
    · rw [h1, h2]

section
variable {R : Str → List Sym → Prop} {S : Str} {g : Grammar}

theorem reach_asks {I : Item → Nat → Prop} (h : Reach g I) {it : Item} {la q b : Nat} (hi : I it la) (ha : Asks g it la q b) : I (q, 0) b := by
  cases h with
  | init => exact .step hi ha
  | goto => exact .step hi ha

theorem dot_moves {q : Nat} {p : Production} (hp : g.prods[q]? = some p) (h0 : ∃ I, Reach g I ∧ ∃ la, I (q, 0) la) :
    ∀ d, d ≤ p.inputs.length → ∃ I, Reach g I ∧ ∃ la, I (q, d) la
  | 0, _ => h0
  | d + 1, hd => by
    obtain ⟨I, hI, la, h⟩ := dot_moves hp h0 d (by omega)
    have ha : Advanced g I p.inputs[d] (q, d + 1) la := ⟨d, p, rfl, h, hp, List.getElem?_eq_getElem (by omega)⟩
    exact ⟨_, .goto hI ⟨_, _, ha⟩, la, .base ha⟩

/-- Every production of a nonterminal that is used is in some set. -/
theorem used_reached (hl : LlR R S g) (hserv : ∀ I, Reach g I → ∀ it la, I it la → ItemSet.Served g it la) {p0 : Production}
    (h0 : g.prods[0]? = some p0) (hS : p0.inputs = [.nonTerm S]) {A : Str} (hA : Uses R S A) :
    ∀ q p, g.prods[q]? = some p → p.name = A → ∃ I, Reach g I ∧ ∃ la, I (q, 0) la := by
  induction hA with
  | refl =>
    intro q p hq hn
    have hi : Clo g (fun it la => it = (0, 0) ∧ la = 0) (0, 0) 0 := .base ⟨rfl, rfl⟩
    obtain ⟨-, b, hb⟩ := hserv _ .init _ _ hi p0 S h0 (by rw [hS]; rfl)
    exact ⟨_, .init, b, reach_asks .init hi (hb q p hq hn)⟩
  | tail _ hR hm ih =>
    intro q p hq hn
    obtain ⟨j, r, j1, -, j3, j4⟩ := hl.back _ _ hR
    rw [← j4] at hm
    obtain ⟨d, hd⟩ := List.getElem?_of_mem hm
    obtain ⟨I, hI, la, h⟩ := dot_moves j1 (ih j r j1 j3) d (Nat.le_of_lt (List.getElem?_eq_some_iff.1 hd).1)
    obtain ⟨-, b, hb⟩ := hserv _ hI _ _ h r _ j1 hd
    exact ⟨I, hI, b, reach_asks hI h (hb q p hq hn)⟩

/-- Every kernel of a production that is used has its set. -/
theorem kernel_reached (hok : Grammar.GOk g) (hl : LlG R S g) (hserv : ∀ I, Reach g I → ∀ it la, I it la → ItemSet.Served g it la)
    {p0 : Production} (h0 : g.prods[0]? = some p0) (hS : p0.inputs = [.nonTerm S]) {k : Item}
    (hk : k ∈ kernels g) (hu : UsedAt R S g k.1) : ∃ I, Reach g I ∧ OneOf g I k := by
  rcases mem_kernels_iff hk with rfl | ⟨q, d, p, rfl, hp, hd⟩
  · exact ⟨_, .init, _, rfl, fun it la h => h.1, ⟨0, rfl, rfl⟩, fun it la h => ItemSet.reach_termLa hok .init it la (.base h)⟩
  · have hq : ∃ I, Reach g I ∧ ∃ la, I (q, 0) la := by
      by_cases hz : q = 0
      · subst hz
        exact ⟨_, .init, 0, .base ⟨rfl, rfl⟩⟩
      · exact used_reached hl.toLlR hserv h0 hS ((hu p hp).resolve_left hz) q p hp rfl
    obtain ⟨I, hI, la, h⟩ := dot_moves hp hq d (Nat.le_of_lt hd)
    have ha : Advanced g I p.inputs[d] (q, d + 1) la := ⟨d, p, rfl, h, hp, List.getElem?_eq_getElem hd⟩
    obtain ⟨it0, hU, hst⟩ := stem_reach hok hl hI
    exact ⟨_, .goto hI ⟨_, _, ha⟩, _, rfl, fun it la h => stem_adv hok hl hU hst h ha, ⟨la, ha⟩,
      fun it la h => ItemSet.adv_termLa (ItemSet.reach_termLa hok hI) h⟩

theorem sum_filter {α : Type} (P : α → Bool) (f : α → Nat) : ∀ l : List α, ((l.filter P).map f).sum = (l.map fun x => if P x then f x else 0).sum
  | [] => rfl
  | x :: l => by
    have ih := sum_filter P f l
    by_cases h : P x = true
    · simp [h, ih]
    · simp [h, ih]

theorem sum_filter_le {α : Type} (P : α → Bool) (f : α → Nat) : ∀ l : List α, ((l.filter P).map f).sum ≤ (l.map f).sum
  | [] => Nat.le_refl _
  | x :: l => by
    have ih := sum_filter_le P f l
    by_cases h : P x = true
    · simp [h, ih]
    · simp only [List.filter_cons_of_neg h, List.map_cons, List.sum_cons]
      omega

open Classical in
/-- The number of kernels of productions that are used. -/
theorem used_kernels (S : Str) {a : Str} {rules : List (Str × List Sym)}
    (hk : g.prods.map (fun p => (p.name, p.inputs)) = (a, [Sym.nonTerm S]) :: rules) :
    ((kernels g).filter fun k => decide (UsedAt R S g k.1)).length =
      2 + ((rules.filter fun x => decide (Uses R S x.1)).map fun x => x.2.length).sum := by
  have hlen : g.prods.length = rules.length + 1 := by simpa using congrArg List.length hk
  have h00 : UsedAt R S g 0 := fun _ _ => .inl rfl
  have hat : ∀ (i : Nat) x, ((a, [Sym.nonTerm S]) :: rules)[i]? = some x → ∃ p : Production, g.prods[i]? = some p ∧ (p.name, p.inputs) = x := by
    intro i x h
    rw [← hk, List.getElem?_map, Option.map_eq_some_iff] at h
    exact h
  have hfl : ∀ q, (((List.range (g.prodAt q).inputs.length).map fun d => (q, d + 1)).filter fun k => decide (UsedAt R S g k.1)).length =
      if UsedAt R S g q then (g.prodAt q).inputs.length else 0 := by
    intro q
    by_cases h : UsedAt R S g q
    · rw [if_pos h, List.filter_eq_self.2]
      · simp
      · intro k hk
        obtain ⟨d, -, rfl⟩ := List.mem_map.1 hk
        exact decide_eq_true h
    · rw [if_neg h, List.filter_eq_nil_iff.2]
      · rfl
      · intro k hk
        obtain ⟨d, -, rfl⟩ := List.mem_map.1 hk
        simpa using h
  have hmap : ((List.range rules.length).map fun q => if UsedAt R S g (q + 1) then (g.prodAt (q + 1)).inputs.length else 0) =
      rules.map fun x => if decide (Uses R S x.1) = true then x.2.length else 0 := by
    apply List.ext_getElem
    · simp
    · intro i h1 h2
      have hi : i < rules.length := by simpa using h2
      obtain ⟨p, hp, hx⟩ := hat (i + 1) rules[i] (by simp [hi])
      have hu : UsedAt R S g (i + 1) ↔ Uses R S p.name := by
        refine ⟨fun h => (h p hp).resolve_left (by omega), fun h r hr => ?_⟩
        rw [hp] at hr; cases hr
        exact .inr h
      simp only [List.getElem_map, List.getElem_range, ← hx, decide_eq_true_eq, hu, Grammar.prodAt, List.getD, hp, Option.getD_some]
  obtain ⟨p0, hp0, hx0⟩ := hat 0 _ rfl
  have h0l : (g.prodAt 0).inputs.length = 1 := by
    rw [Prod.mk.injEq] at hx0
    simp [Grammar.prodAt, List.getD, hp0, hx0.2]
  rw [sum_filter, ← hmap, kernels, List.filter_cons_of_pos (by simpa using h00), List.length_cons, List.filter_flatMap, List.length_flatMap]
  simp only [hfl]
  rw [hlen, List.range_succ_eq_map, List.map_cons, List.sum_cons, if_pos h00, h0l, List.map_map]
  simp only [Function.comp_def, Nat.succ_eq_add_one]
  omega

end
end Verif
