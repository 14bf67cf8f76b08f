import Verif.Proofs.DfaBuild
import Verif.Proofs.NfaLabels
import Verif.Proofs.OverlapLaminar
import Verif.Spec.Ranges

/-! Walking the DFA computes reachability in the NFA. -/

namespace Verif
open Spec

namespace Nfa
/-- What the DFA construction needs of an automaton. -/
structure Base (n : Nfa) : Prop where
  wf : n.WF
  start : 0 < n.states.length
  bound : ∀ e ∈ n.edges, e.src < n.states.length ∧ e.dst < n.states.length
  into : ∀ e ∈ n.edges, e.dst ≠ 0

theorem Good.base {n : Nfa} {L K V} (g : n.Good L K V) : n.Base :=
  ⟨g.wf, by have := g.len; omega, g.bound, g.into⟩

theorem epsReach_visible {n : Nfa} (hw : n.WF) {s t : Nat} :
    EpsReach n.visible s t ↔ EpsReach n.edges s t :=
  ⟨EpsReach.mono' fun _ he => (mem_visible_wf hw).mp he,
   EpsReach.mono' fun _ he => (mem_visible_wf hw).mpr he⟩

theorem Base.epsReach_lt {n : Nfa} (hn : n.Base) {s t : Nat} (p : EpsReach n.edges s t)
    (h : s < n.states.length) : t < n.states.length := by
  induction p with
  | refl s => exact h
  | step h1 _ _ _ ih => exact ih (hn.bound _ h1).2

theorem Base.epsReach_ne {n : Nfa} (hn : n.Base) {s t : Nat} (p : EpsReach n.edges s t)
    (h : s ≠ 0) : t ≠ 0 := by
  induction p with
  | refl s => exact h
  | step h1 _ _ _ ih => exact ih (hn.into _ h1)

theorem Base.path_lt {n : Nfa} (hn : n.Base) {s t w} (p : Path n.edges s w t)
    (h : s < n.states.length) : t < n.states.length := by
  induction p with
  | nil s => exact h
  | eps h1 _ _ _ ih => exact ih (hn.bound _ h1).2
  | chr h1 _ _ _ _ _ ih => exact ih (hn.bound _ h1).2
end Nfa

namespace Dfa

/-- Closure of the move on a label. -/
def tr (n : Nfa) (u : List Nat) (l : Match) : List Nat :=
  match epsClosure n (moveSet n u l) with
  | .ok r => r
  | .error _ => []

theorem tr_spec {n : Nfa} (hn : n.Base) (u : List Nat) (l : Match) :
    epsClosure n (moveSet n u l) = .ok (tr n u l) ∧ Sorted (tr n u l) ∧
    ∀ x, x ∈ tr n u l ↔ ∃ e ∈ n.edges, e.src ∈ u ∧ ∃ m, e.label = some m ∧
      Mem l.lo m ∧ Mem (l.hi - 1) m ∧ EpsReach n.edges e.dst x := by
  obtain ⟨h1, h2⟩ := moveSet_spec n u l
  obtain ⟨r, h3, h4, h5⟩ := epsClosure_ok (fun e he => (hn.bound e he).2) h1
  have : tr n u l = r := by simp [tr, h3]
  rw [this]
  refine ⟨h3, h4, fun x => (h5 x).trans ?_⟩
  simp only [h2, Nfa.epsReach_visible hn.wf, Nfa.edgeIter_eq_filter (hn.wf _), List.mem_filter,
    beq_iff_eq, Match.containsU32, Bool.and_eq_true, decide_eq_true_eq]
  constructor
  · rintro ⟨s, ⟨s', hs', e, ⟨he, rfl⟩, m, hm, a, b, rfl⟩, hr⟩
    exact ⟨e, he, hs', m, hm, a, b, hr⟩
  · rintro ⟨e, he, hs, m, hm, a, b, hr⟩
    exact ⟨e.dst, ⟨e.src, hs, e, ⟨he, rfl⟩, m, hm, a, b, rfl⟩, hr⟩

/-- Sets the construction can meet. -/
def SetOk (n : Nfa) (u : List Nat) : Prop := Sorted u ∧ ∀ x ∈ u, x < n.states.length

/-- The DFA `d` over alphabet `al` whose states are the sets `D`. -/
structure Built (n : Nfa) (d : Dfa) (al : List Match) (D : List (List Nat)) (s0 : List Nat) : Prop where
  base : n.Base
  alphabet : Overlap.removeOverlap (ofList n.labels) = .ok al
  nonempty : ∀ a ∈ al, a.lo < a.hi
  start : ∀ x, x ∈ s0 ↔ Path n.edges 0 [] x
  spec : Spec n s0 al (tr n) (SetOk n) d D

theorem fromNfa_built {n : Nfa} (hn : n.Base) {ord : Nfa.Order} (ho : Nfa.OrderOk ord) :
    ∃ d al D s0, fromNfa n ord = .ok d ∧ Built n d al D s0 := by
  obtain ⟨al, h1, h2, _, _⟩ := Overlap.removeOverlap_ok (ofList n.labels)
  obtain ⟨r, h3, _, h4⟩ := Nfa.start_closure hn.wf ho 0
  have hs0 : ∀ x, x ∈ ofList (ord 1 r) ↔ Path n.edges 0 [] x := by
    intro x; rw [mem_ofList, ho, h4]; rfl
  obtain ⟨d, D, h5, h6⟩ := build_spec (n := n) (ord := ord) (alphabet := al) (tr := tr n)
    (s0 := ofList (ord 1 r)) (fun u l => (tr_spec hn u l).1) (P := SetOk n)
    (by
      intro u l _ hu _
      refine ⟨(tr_spec hn u l).2.1, fun x hx => ?_⟩
      obtain ⟨e, he, _, _, _, _, _, hr⟩ := ((tr_spec hn u l).2.2 x).mp hx
      exact hn.epsReach_lt hr (hn.bound e he).2)
    (fun u hu => hu) h3 rfl
    ⟨sorted_ofList _, fun x hx => hn.path_lt ((hs0 x).mp hx) hn.start⟩
  exact ⟨d, al, D, _, by simp [fromNfa, h1, h5, bind, Except.bind], hn, h1, h2, hs0, h6⟩

theorem forall₂_mem_right {α β} {R : α → β → Prop} {l : List α} {l' : List β}
    (h : List.Forall₂ R l l') {b : β} (hb : b ∈ l') : ∃ a ∈ l, R a b := by
  induction h with
  | nil => simp at hb
  | cons h1 _ ih =>
    rcases List.mem_cons.mp hb with rfl | hb
    · exact ⟨_, by simp, h1⟩
    · obtain ⟨a, ha, hr⟩ := ih hb; exact ⟨a, by simp [ha], hr⟩

theorem forall₂_mem_left {α β} {R : α → β → Prop} {l : List α} {l' : List β}
    (h : List.Forall₂ R l l') {a : α} (ha : a ∈ l) : ∃ b ∈ l', R a b := by
  induction h with
  | nil => simp at ha
  | cons h1 _ ih =>
    rcases List.mem_cons.mp ha with rfl | ha
    · exact ⟨_, by simp, h1⟩
    · obtain ⟨b, hb, hr⟩ := ih ha; exact ⟨b, by simp [hb], hr⟩

theorem forall₂_append_right {α β} {R : α → β → Prop} {l : List α} {l₁ l₂ : List β}
    (h : List.Forall₂ R l (l₁ ++ l₂)) : ∃ k₁ k₂, List.Forall₂ R k₁ l₁ ∧ List.Forall₂ R k₂ l₂ ∧ l = k₁ ++ k₂ := by
  induction l₁ generalizing l with
  | nil => exact ⟨[], l, .nil, h, rfl⟩
  | cons b l₁ ih =>
    cases h with
    | cons h1 h2 =>
      obtain ⟨k₁, k₂, h3, h4, rfl⟩ := ih h2
      exact ⟨_ :: k₁, k₂, .cons h1 h3, h4, rfl⟩

variable {n : Nfa} {d : Dfa} {al : List Match} {D : List (List Nat)} {s0 : List Nat}

theorem Built.edge (B : Built n d al D s0) {t : Nat} {u : List Nat} (hu : D[t]? = some u)
    {c : Char} {e : DEdge} (he : d.findEdge t c = some e) :
    e.src = t ∧ e.label ∈ al ∧ Mem c.toNat e.label ∧ D[e.dst]? = some (tr n u e.label) ∧ e.dst ≠ 0 := by
  have h1 := List.find?_some he
  have h2 := List.mem_of_find?_eq_some he
  obtain ⟨l, hl, h3, h4, h5⟩ := forall₂_mem_right (B.spec.iter t u hu) h2
  rw [List.mem_filter] at hl
  subst h4
  refine ⟨h3, hl.1, Nfa.matchesC_iff.mp h1, h5, ?_⟩
  intro h0
  have : tr n u e.label = s0 := by
    have := B.spec.zero
    rw [h0, this] at h5
    exact (Option.some.inj h5).symm
  have h0m : 0 ∈ s0 := (B.start 0).mpr (.nil 0)
  rw [← this] at h0m
  obtain ⟨e', he', _, _, _, _, _, hr⟩ := ((tr_spec B.base u e.label).2.2 0).mp h0m
  exact B.base.epsReach_ne hr (B.base.into e' he') rfl

/-- The set of DFA state `t` only contains states reachable over `w`. -/
def SubReach (n : Nfa) (D : List (List Nat)) (t : Nat) (w : List Char) : Prop :=
  ∃ u, D[t]? = some u ∧ ∀ x ∈ u, Path n.edges 0 w x

/-- The set of DFA state `t` is exactly the set of states reachable over `w`. -/
def EqReach (n : Nfa) (D : List (List Nat)) (t : Nat) (w : List Char) : Prop :=
  ∃ u, D[t]? = some u ∧ ∀ x, x ∈ u ↔ Path n.edges 0 w x

theorem EqReach.sub {t w} (h : EqReach n D t w) : SubReach n D t w := by
  obtain ⟨u, h1, h2⟩ := h; exact ⟨u, h1, fun x => (h2 x).mp⟩

theorem Built.eqReach_nil (B : Built n d al D s0) : EqReach n D 0 [] := ⟨s0, B.spec.zero, B.start⟩

theorem mem_tr_path {u w} (hn : n.Base) (hs : ∀ x ∈ u, Path n.edges 0 w x) {a : Match} {c : Char}
    (hc : Mem c.toNat a) {x : Nat} (hx : x ∈ tr n u a) : Path n.edges 0 (w ++ [c]) x := by
  obtain ⟨e, he, hsrc, m, hm, h1, h2, hr⟩ := ((tr_spec hn u a).2.2 x).mp hx
  refine Nfa.path_snoc.mpr ⟨e.src, hs _ hsrc, e, he, m, rfl, hm, Nfa.matchesC_iff.mpr ?_, hr⟩
  unfold Mem at *; omega

theorem Built.step_sub (B : Built n d al D s0) {t w c} {e : DEdge} (h : SubReach n D t w)
    (he : d.findEdge t c = some e) : SubReach n D e.dst (w ++ [c]) := by
  obtain ⟨u, h1, h2⟩ := h
  obtain ⟨_, _, h4, h5, _⟩ := B.edge h1 he
  exact ⟨_, h5, fun x hx => mem_tr_path B.base h2 h4 hx⟩

theorem Built.step_ne (B : Built n d al D s0) {t w c} {e : DEdge} (h : SubReach n D t w)
    (he : d.findEdge t c = some e) : ∃ x, Path n.edges 0 (w ++ [c]) x := by
  obtain ⟨u, h1, h2⟩ := h
  obtain ⟨_, _, h4, h5, h6⟩ := B.edge h1 he
  have := B.spec.pos e.dst _ (by omega) h5
  obtain ⟨x, hx⟩ := List.exists_mem_of_ne_nil _ this
  exact ⟨x, mem_tr_path B.base h2 h4 hx⟩

/-- `m` labels an edge leaving a state reachable over `w`. -/
def Leaves (n : Nfa) (w : List Char) (m : Match) : Prop :=
  ∃ e ∈ n.edges, e.label = some m ∧ Path n.edges 0 w e.src

/-- The piece used for a character lies inside every label possible there that contains it. -/
def Uniform (n : Nfa) (al : List Match) : Prop := ∀ w (c : Char) a m,
  Chosen al (Leaves n w) c.toNat a → Leaves n w m → Mem c.toNat m → Within a m

/-- Some atom of `c` refines a label containing `c`. -/
theorem Built.atom (B : Built n d al D s0) {m : Match} {c : Nat}
    (hm : n.Lab m) (hc : Mem c m) : ∃ a ∈ al, Mem c a ∧ Within a m := by
  obtain ⟨al', h1, _, _, h4⟩ := Overlap.removeOverlap_ok (ofList n.labels)
  have := B.alphabet
  rw [h1] at this; cases this
  exact h4 m (mem_ofList.mpr ((Nfa.mem_labels B.base.wf).mpr hm)) c hc

theorem Built.tr_ne (B : Built n d al D s0) {u w} (hs : ∀ x, x ∈ u ↔ Path n.edges 0 w x) {a : Match}
    (ha : a ∈ al) : tr n u a ≠ [] ↔ ∃ m, Leaves n w m ∧ Within a m := by
  have hne := B.nonempty a ha
  constructor
  · intro h
    obtain ⟨x, hx⟩ := List.exists_mem_of_ne_nil _ h
    obtain ⟨e, he, hsrc, m, hm, h1, h2, -⟩ := ((tr_spec B.base u a).2.2 x).mp hx
    refine ⟨m, ⟨e, he, hm, (hs _).mp hsrc⟩, fun c hc => ?_⟩
    unfold Mem at *; omega
  · rintro ⟨m, ⟨e, he, hm, hp⟩, hw⟩
    refine List.ne_nil_of_mem (a := e.dst)
      (((tr_spec B.base u a).2.2 e.dst).mpr ⟨e, he, (hs _).mpr hp, m, hm, ?_, ?_, .refl _⟩)
    · exact hw _ (by unfold Mem; omega)
    · exact hw _ (by unfold Mem; omega)

/-- The edge found for a character belongs to the chosen piece. -/
theorem Built.chosen (B : Built n d al D s0) {t u w} (hu : D[t]? = some u)
    (hs : ∀ x, x ∈ u ↔ Path n.edges 0 w x) {c : Char} {e : DEdge} (he : d.findEdge t c = some e) :
    Chosen al (Leaves n w) c.toNat e.label := by
  obtain ⟨hc, E₁, E₂, hE, hno⟩ := List.find?_eq_some_iff_append.mp he
  have hit := B.spec.iter t u hu
  rw [hE] at hit
  obtain ⟨F₁, F, hF₁, hF, hfe⟩ := forall₂_append_right hit
  obtain ⟨a, F₂, hae, -, rfl⟩ := List.forall₂_cons_right_iff.mp hF
  obtain ⟨A₁, A₂, hA, hA₁, hA₂⟩ := List.filter_eq_append_iff.mp hfe
  obtain ⟨B₁, B₂, hB, hB₁, hPa, -⟩ := List.filter_eq_cons_iff.mp hA₂
  obtain ⟨-, hl, -⟩ := hae
  rw [hl]
  have haal : a ∈ al := by rw [hA, hB]; simp
  refine ⟨A₁ ++ B₁, B₂, by rw [hA, hB]; simp, ?_, (B.tr_ne hs haal).mp (by simpa using hPa), ?_⟩
  · rw [← hl]; exact Nfa.matchesC_iff.mp hc
  · intro b hb hcb r hr hw
    have hbal : b ∈ al := by
      rw [hA, hB]
      rcases List.mem_append.mp hb with hb | hb <;> simp [hb]
    have hP := (B.tr_ne hs hbal).mpr ⟨r, hr, hw⟩
    rcases List.mem_append.mp hb with hb | hb
    · have hbF : b ∈ F₁ := by rw [← hA₁, List.mem_filter]; exact ⟨hb, by simpa using hP⟩
      obtain ⟨de, hde, -, h4, -⟩ := forall₂_mem_left hF₁ hbF
      have := hno de hde
      rw [h4] at this
      have hm := Nfa.matchesC_iff.mpr hcb
      simp [hm] at this
    · exact hB₁ b hb (by simpa using hP)

theorem Built.mem_tr_iff (B : Built n d al D s0) (hd : Uniform n al) {u w}
    (hs : ∀ x, x ∈ u ↔ Path n.edges 0 w x) {a : Match} (ha : a ∈ al) {c : Char}
    (hch : Chosen al (Leaves n w) c.toNat a) (x : Nat) : x ∈ tr n u a ↔ Path n.edges 0 (w ++ [c]) x := by
  have hc : Mem c.toNat a := by obtain ⟨_, _, _, h, _⟩ := hch; exact h
  refine ⟨mem_tr_path B.base (fun x => (hs x).mp) hc, fun hp => ?_⟩
  obtain ⟨s, hps, e, he, m, rfl, hm, hmc, hr⟩ := Nfa.path_snoc.mp hp
  have hw : Within a m := hd w c a m hch ⟨e, he, hm, hps⟩ (Nfa.matchesC_iff.mp hmc)
  refine ((tr_spec B.base u a).2.2 x).mpr ⟨e, he, (hs _).mpr hps, m, hm, ?_, ?_, hr⟩
  · exact hw _ (by have := B.nonempty a ha; unfold Mem; omega)
  · exact hw _ (by have := B.nonempty a ha; unfold Mem; omega)

theorem Built.step_eq (B : Built n d al D s0) (hd : Uniform n al) {t w c} {e : DEdge}
    (h : EqReach n D t w) (he : d.findEdge t c = some e) : EqReach n D e.dst (w ++ [c]) := by
  obtain ⟨u, h1, h2⟩ := h
  obtain ⟨_, h3, h4, h5, _⟩ := B.edge h1 he
  exact ⟨_, h5, B.mem_tr_iff hd h2 h3 (B.chosen h1 h2 he)⟩

theorem Built.step_none (B : Built n d al D s0) {t w c}
    (h : EqReach n D t w) (he : d.findEdge t c = none) : ∀ x, ¬ Path n.edges 0 (w ++ [c]) x := by
  intro x hp
  obtain ⟨u, h1, h2⟩ := h
  obtain ⟨s, hps, e, hee, m, rfl, hm, hmc, hr⟩ := Nfa.path_snoc.mp hp
  obtain ⟨a, ha, hc, hw⟩ := B.atom ⟨e, hee, hm⟩ (Nfa.matchesC_iff.mp hmc)
  obtain ⟨de, hde, h3, h4, h5⟩ := forall₂_mem_left (B.spec.iter t u h1) (a := a) (by
    rw [List.mem_filter]
    refine ⟨ha, ?_⟩
    have : tr n u a ≠ [] := (B.tr_ne h2 ha).mpr ⟨m, ⟨e, hee, hm, hps⟩, hw⟩
    simpa using this)
  have := List.find?_eq_none.mp he de hde
  rw [h4] at this
  exact this (Nfa.matchesC_iff.mpr hc)

/-- Accepting NFA states recorded for a DFA state other than 0. -/
theorem mget_filterMap_acc (acc : List Nat) : ∀ (m : List (Nat × List Nat)), MSorted m → ∀ k,
    mget k (m.filterMap fun p =>
      match p.2.filter (fun x => decide (x ∈ acc)) with
      | [] => none
      | l => some (p.1, l)) =
    (mget k m).bind fun u => match u.filter (fun x => decide (x ∈ acc)) with
      | [] => none
      | l => some l
  | [], _, k => by simp [mget]
  | (k', v) :: m, hs, k => by
    have hs' := List.pairwise_cons.mp hs
    have ih := mget_filterMap_acc acc m hs'.2 k
    have hno : k = k' → mget k m = none := by
      rintro rfl
      rw [mget_eq_none_iff]
      intro hmem
      exact blt_ne (hs'.1 _ hmem) rfl
    rw [List.filterMap_cons]
    simp only [mget]
    by_cases hk : k = k'
    · rw [if_pos hk]
      cases hf : v.filter (fun x => decide (x ∈ acc)) with
      | nil =>
        rw [ih, hno hk]; simp [hf]
      | cons a l =>
        simp only [mget, if_pos hk, Option.bind_some, hf]
    · rw [if_neg hk]
      cases hf : v.filter (fun x => decide (x ∈ acc)) with
      | nil => rw [ih]
      | cons a l => simp only [mget, if_neg hk]; rw [ih]

theorem Built.mget_accepting (B : Built n d al D s0) (t : Nat) : mget t d.acceptingStates =
    if t = 0 then none else D[t]?.bind fun u => match u.filter (fun x => decide (x ∈ n.acceptingStates)) with
      | [] => none
      | l => some l := by
  unfold acceptingStates
  rw [B.spec.accepting]
  refine (mget_filterMap_acc _ _ B.spec.msorted t).trans ?_
  rw [B.spec.map t]
  split <;> simp

end Dfa
end Verif
