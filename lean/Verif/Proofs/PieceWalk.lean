import Verif.Proofs.PieceSim

/-! The generated lexer on words of pieces, for every list of tokens. -/

namespace Verif
open Spec

theorem within_iff {a m : Match} (ha : a.lo < a.hi) : Within a m ↔ m.lo ≤ a.lo ∧ a.hi ≤ m.hi := by
  constructor
  · intro h
    have h1 := h a.lo ⟨Nat.le_refl _, ha⟩
    have h2 := h (a.hi - 1) ⟨by omega, by omega⟩
    unfold Mem at h1 h2; omega
  · rintro ⟨h1, h2⟩ c hc
    unfold Mem at *; omega

theorem chosen_mem {al R c a} (h : Chosen al R c a) : a ∈ al := by
  obtain ⟨l₁, l₂, rfl, _⟩ := h; simp

theorem chosen_unique {al R c a b} (h : Chosen al R c a) (h' : Chosen al R c b) : a = b := by
  obtain ⟨l₁, l₂, e, m, ⟨r, hr, hw⟩, no⟩ := h
  obtain ⟨k₁, k₂, e', m', ⟨r', hr', hw'⟩, no'⟩ := h'
  rw [e] at e'
  rcases List.append_eq_append_iff.mp e' with ⟨x, rfl, hx⟩ | ⟨x, rfl, hx⟩
  · cases x with
    | nil => simp at hx; exact hx.1
    | cons y x =>
      simp only [List.cons_append, List.cons.injEq] at hx
      obtain ⟨rfl, rfl⟩ := hx
      exact absurd hw (no' a (by simp) m r hr)
  · cases x with
    | nil => simp at hx; exact hx.1.symm
    | cons y x =>
      simp only [List.cons_append, List.cons.injEq] at hx
      obtain ⟨rfl, rfl⟩ := hx
      exact absurd hw' (no b (by simp) m' r' hr')

theorem reads_unique {al hs w as} (h : Reads al hs w as) : ∀ {w' bs}, Reads al hs w' bs → w' = w → bs = as := by
  induction h with
  | nil =>
    intro w' bs h' e
    cases h' with
    | nil => rfl
    | snoc _ _ => simp at e
  | @snoc w as c a h1 h2 ih =>
    intro w' bs h' e
    cases h' with
    | nil => simp at e
    | snoc h3 h4 =>
      obtain ⟨rfl, e2⟩ := List.append_inj' e rfl
      simp only [List.cons.injEq, and_true] at e2
      subst e2
      have := ih h3 rfl
      subst this
      rw [chosen_unique h4 h2]

/-- What is read has a beginning that is read. -/
theorem reads_append {al hs} : ∀ {v as w}, Reads al hs (w ++ v) as → ∃ bs, Reads al hs w bs := by
  intro v
  induction v using List.reverseRecOn with
  | nil => intro as w h; exact ⟨as, by simpa using h⟩
  | append_singleton v c ih =>
    intro as w h
    generalize hx : w ++ (v ++ [c]) = x at h
    cases h with
    | nil => simp at hx
    | snoc h1 _ =>
      rw [← List.append_assoc] at hx
      obtain ⟨rfl, _⟩ := List.append_inj' hx rfl
      exact ih h1

namespace Dfa
variable {n : Nfa} {d : Dfa} {al : List Match} {D : List (List Nat)} {s0 : List Nat}

/-- `m` labels an edge leaving a state reachable over the pieces `as`. -/
def PLeaves (n : Nfa) (as : List Match) (m : Match) : Prop :=
  ∃ e ∈ n.edges, e.label = some m ∧ PPath n.edges 0 as e.src

/-- The set of DFA state `t` is exactly the set of states reachable over the pieces `as`. -/
def PReach (n : Nfa) (D : List (List Nat)) (t : Nat) (as : List Match) : Prop :=
  ∃ u, D[t]? = some u ∧ ∀ x, x ∈ u ↔ PPath n.edges 0 as x

theorem ppath_nil {es : List NEdge} {s t : Nat} : PPath es s [] t ↔ EpsReach es s t :=
  ⟨fun p => p.toEps rfl, fun p => p.toPPath⟩

theorem Built.preach_nil (B : Built n d al D s0) : PReach n D 0 [] :=
  ⟨s0, B.spec.zero, fun x => (B.start x).trans ⟨fun p => (p.toEps rfl).toPPath, fun p => (p.toEps rfl).toPath⟩⟩

theorem Built.mem_tr (B : Built n d al D s0) {u as} (hs : ∀ x, x ∈ u ↔ PPath n.edges 0 as x) {a : Match}
    (ha : a ∈ al) (x : Nat) : x ∈ tr n u a ↔ PPath n.edges 0 (as ++ [a]) x := by
  have hne := B.nonempty a ha
  rw [(tr_spec B.base u a).2.2, Nfa.ppath_snoc]
  constructor
  · rintro ⟨e, he, hsrc, m, hm, h1, h2, hr⟩
    refine ⟨e.src, (hs _).mp hsrc, e, he, m, rfl, hm, ?_, hr⟩
    unfold Mem at *; omega
  · rintro ⟨s, hp, e, he, m, rfl, hm, h1, hr⟩
    refine ⟨e, he, (hs _).mpr hp, m, hm, ?_, ?_, hr⟩ <;> unfold Mem <;> omega

theorem Built.ptr_ne (B : Built n d al D s0) {u as} (hs : ∀ x, x ∈ u ↔ PPath n.edges 0 as x) {a : Match}
    (ha : a ∈ al) : tr n u a ≠ [] ↔ ∃ m, PLeaves n as m ∧ Within a m := by
  have hne := B.nonempty a ha
  constructor
  · intro h
    obtain ⟨x, hx⟩ := List.exists_mem_of_ne_nil _ h
    obtain ⟨e, he, hsrc, m, hm, h1, h2, -⟩ := ((tr_spec B.base u a).2.2 x).mp hx
    refine ⟨m, ⟨e, he, hm, (hs _).mp hsrc⟩, fun c hc => ?_⟩
    unfold Mem at *; omega
  · rintro ⟨m, ⟨e, he, hm, hp⟩, hw⟩
    refine List.ne_nil_of_mem (a := e.dst)
      (((tr_spec B.base u a).2.2 e.dst).mpr ⟨e, he, (hs _).mpr hp, m, hm, ?_, ?_, .refl _⟩)
    · exact hw _ (by unfold Mem; omega)
    · exact hw _ (by unfold Mem; omega)

/-- The edge found for a character belongs to the chosen piece. -/
theorem Built.pchosen (B : Built n d al D s0) {t u as} (hu : D[t]? = some u)
    (hs : ∀ x, x ∈ u ↔ PPath n.edges 0 as x) {c : Char} {e : DEdge} (he : d.findEdge t c = some e) :
    Chosen al (PLeaves n as) c.toNat e.label := by
  obtain ⟨hc, E₁, E₂, hE, hno⟩ := List.find?_eq_some_iff_append.mp he
  have hit := B.spec.iter t u hu
  rw [hE] at hit
  obtain ⟨F₁, F, hF₁, hF, hfe⟩ := forall₂_append_right hit
  obtain ⟨a, F₂, hae, -, rfl⟩ := List.forall₂_cons_right_iff.mp hF
  obtain ⟨A₁, A₂, hA, hA₁, hA₂⟩ := List.filter_eq_append_iff.mp hfe
  obtain ⟨B₁, B₂, hB, hB₁, hPa, -⟩ := List.filter_eq_cons_iff.mp hA₂
  obtain ⟨-, hl, -⟩ := hae
  rw [hl]
  have haal : a ∈ al := by rw [hA, hB]; simp
  refine ⟨A₁ ++ B₁, B₂, by rw [hA, hB]; simp, ?_, (B.ptr_ne hs haal).mp (by simpa using hPa), ?_⟩
  · rw [← hl]; exact Nfa.matchesC_iff.mp hc
  · intro b hb hcb r hr hw
    have hbal : b ∈ al := by
      rw [hA, hB]
      rcases List.mem_append.mp hb with hb | hb <;> simp [hb]
    have hP := (B.ptr_ne hs hbal).mpr ⟨r, hr, hw⟩
    rcases List.mem_append.mp hb with hb | hb
    · have hbF : b ∈ F₁ := by rw [← hA₁, List.mem_filter]; exact ⟨hb, by simpa using hP⟩
      obtain ⟨de, hde, -, h4, -⟩ := forall₂_mem_left hF₁ hbF
      have := hno de hde
      rw [h4] at this
      have hm := Nfa.matchesC_iff.mpr hcb
      simp [hm] at this
    · exact hB₁ b hb (by simpa using hP)

theorem Built.pstep_none (B : Built n d al D s0) {t as c}
    (h : PReach n D t as) (he : d.findEdge t c = none) (a : Match) : ¬ Chosen al (PLeaves n as) c.toNat a := by
  intro hch
  have ha := chosen_mem hch
  obtain ⟨l₁, l₂, hal, hc, hw, hno⟩ := hch
  obtain ⟨u, h1, h2⟩ := h
  obtain ⟨de, hde, h3, h4, h5⟩ := forall₂_mem_left (B.spec.iter t u h1) (a := a) (by
    rw [List.mem_filter]
    exact ⟨ha, by simpa using (B.ptr_ne h2 ha).mpr hw⟩)
  have := List.find?_eq_none.mp he de hde
  rw [h4] at this
  exact this (Nfa.matchesC_iff.mpr hc)

theorem Built.pstep (B : Built n d al D s0) {t as c} {e : DEdge} (h : PReach n D t as)
    (he : d.findEdge t c = some e) :
    Chosen al (PLeaves n as) c.toNat e.label ∧ PReach n D e.dst (as ++ [e.label]) := by
  obtain ⟨u, h1, h2⟩ := h
  obtain ⟨_, h3, h4, h5, _⟩ := B.edge h1 he
  exact ⟨B.pchosen h1 h2 he, _, h5, B.mem_tr h2 h3⟩

variable {hs : List Hir}

/-- A walk reads the pieces it takes. -/
theorem Built.pwalk (B : Built n d al D s0) (hl : ∀ as, PLeaves n as = PAfter hs as) :
    ∀ {w t}, d.walk 0 w = some t → ∃ as, Reads al hs w as ∧ PReach n D t as := by
  intro w
  induction w using List.reverseRecOn with
  | nil => intro t h; simp only [walk, Option.some.injEq] at h; subst h; exact ⟨[], .nil, B.preach_nil⟩
  | append_singleton w c ih =>
    intro t h
    rw [walk_snoc] at h
    cases h1 : d.walk 0 w with
    | none => simp [h1] at h
    | some s =>
      obtain ⟨as, h2, h3⟩ := ih h1
      rw [h1] at h
      simp only [Option.bind_some] at h
      cases he : d.findEdge s c with
      | none => simp [he] at h
      | some e =>
        simp only [he, Option.map_some, Option.some.injEq] at h
        subst h
        obtain ⟨h4, h5⟩ := B.pstep h3 he
        exact ⟨_, .snoc h2 (hl as ▸ h4), h5⟩

theorem Built.walk_of_reads (B : Built n d al D s0) (hl : ∀ as, PLeaves n as = PAfter hs as) {w as}
    (h : Reads al hs w as) : ∃ t, d.walk 0 w = some t ∧ PReach n D t as := by
  induction h with
  | nil => exact ⟨0, rfl, B.preach_nil⟩
  | @snoc w as c a h1 h2 ih =>
    obtain ⟨s, h3, h4⟩ := ih
    rw [walk_snoc, h3]
    simp only [Option.bind_some]
    rw [← hl] at h2
    cases he : d.findEdge s c with
    | none => exact absurd h2 (B.pstep_none h4 he a)
    | some e =>
      obtain ⟨h5, h6⟩ := B.pstep h4 he
      have := chosen_unique h5 h2
      subst this
      exact ⟨_, rfl, h6⟩

theorem Built.walk_reads (B : Built n d al D s0) (hl : ∀ as, PLeaves n as = PAfter hs as) {w} :
    (d.walk 0 w).isSome = true ↔ ∃ as, Reads al hs w as := by
  constructor
  · intro h
    obtain ⟨t, h⟩ := Option.isSome_iff_exists.mp h
    obtain ⟨as, h1, _⟩ := B.pwalk hl h
    exact ⟨as, h1⟩
  · rintro ⟨as, h⟩
    obtain ⟨t, h1, _⟩ := B.walk_of_reads hl h
    simp [h1]

end Dfa

namespace Lex
variable {toks : List (TokenDef × Hir)} {lx : Lex} {N : Nfa} {acc : Nat → Nat} {al : List Match}
  {D : List (List Nat)} {s0 : List Nat}

theorem fromTokens_pmade {ord : Nfa.Order} (ho : Nfa.OrderOk ord) {toks lx}
    (h : fromTokens ord toks = .ok lx) : ∃ N acc al D s0, Made toks lx N acc al D s0 ∧ PCombined toks N acc := by
  unfold fromTokens at h
  cases hb : buildNfas toks with
  | error e => simp [hb, bind, Except.bind] at h
  | ok ns =>
    obtain ⟨acc, hc⟩ := combined hb
    obtain ⟨d, al, D, s0, h1, B⟩ := Dfa.fromNfa_built hc.base ho
    simp only [hb, bind, Except.bind, h1, pure, Except.pure, Except.ok.injEq] at h
    subst h
    exact ⟨_, acc, al, D, s0, ⟨hc, B, rfl⟩, pcombined hb hc⟩

theorem PCombined.leaves (P : PCombined toks N acc) (as : List Match) :
    Dfa.PLeaves N as = PAfter (toks.map Prod.snd) as := by
  funext l
  refine propext ?_
  rw [Dfa.PLeaves, P.next]
  simp only [PAfter, List.mem_map]
  exact ⟨fun ⟨p, h1, h2⟩ => ⟨_, ⟨p, h1, rfl⟩, h2⟩, fun ⟨_, ⟨p, h1, h3⟩, h2⟩ => ⟨p, h1, h3 ▸ h2⟩⟩

theorem pToken_unique {al toks w i j} (h : PToken al toks w i) (h' : PToken al toks w j) : i = j := by
  obtain ⟨as, h1, ⟨p, h2, h3⟩, h4⟩ := h
  obtain ⟨bs, g1, ⟨q, g2, g3⟩, g4⟩ := h'
  have := reads_unique h1 g1 rfl
  subst this
  rcases Nat.lt_trichotomy i j with hij | hij | hij
  · exact absurd h3 (g4 i p hij h2)
  · exact hij
  · exact absurd g3 (h4 j q hij g2)

/-- The accepted texts are the tokens. -/
theorem Made.acc_iff (M : Made toks lx N acc al D s0) (P : PCombined toks N acc) {w : List Char} (hw : w ≠ [])
    {a : Nat} : lx.Acc w a ↔ ∃ i, a = acc i ∧ PToken al toks w i := by
  have fwd : ∀ a, lx.Acc w a → ∃ i, a = acc i ∧ PToken al toks w i := by
    rintro a ⟨-, t, hwk, ha⟩
    obtain ⟨as, hr, u, hu, heq⟩ := M.built.pwalk P.leaves hwk
    rw [M.acceptOf (M.built.walk_ne hw hwk) hu] at ha
    have hin := List.mem_of_head? ha
    simp only [List.mem_filter, decide_eq_true_eq] at hin
    obtain ⟨i, hi, rfl⟩ := (M.comb.accepting a).mp hin.2
    refine ⟨i, rfl, as, hr, ⟨toks[i], List.getElem?_eq_getElem hi, ?_⟩, ?_⟩
    · exact (P.lang i toks[i].1 toks[i].2 (List.getElem?_eq_getElem hi) as).mp ((heq _).mp hin.1)
    · intro j p' hj hp' hm'
      have hsort : (u.filter fun x => decide (x ∈ N.acceptingStates)).Pairwise (· < ·) := by
        have := (M.built.spec.all u (List.mem_of_getElem? hu)).1
        exact (this.imp (by intro a b hab; simpa [blt, BOrd.blt] using hab)).filter _
      have hmem : acc j ∈ u.filter fun x => decide (x ∈ N.acceptingStates) := by
        simp only [List.mem_filter, decide_eq_true_eq]
        exact ⟨(heq _).mpr ((P.lang j p'.1 p'.2 hp' as).mpr hm'), (M.comb.accepting _).mpr ⟨j, by omega, rfl⟩⟩
      have hlt := M.comb.mono j i hj hi
      revert ha hsort hmem
      cases u.filter (fun x => decide (x ∈ N.acceptingStates)) with
      | nil => simp
      | cons b l =>
        intro ha hsort hmem
        simp only [List.head?_cons, Option.some.injEq] at ha
        subst ha
        rcases List.mem_cons.mp hmem with h | h
        · omega
        · have := (List.pairwise_cons.mp hsort).1 _ h; omega
  refine ⟨fwd a, ?_⟩
  rintro ⟨i, rfl, hT⟩
  obtain ⟨as, hr, ⟨q, hq, hm⟩, -⟩ := id hT
  obtain ⟨t, hwk, u, hu, heq⟩ := M.built.walk_of_reads P.leaves hr
  have hi := (List.getElem?_eq_some_iff.mp hq).1
  have hmem : acc i ∈ u.filter fun x => decide (x ∈ N.acceptingStates) := by
    simp only [List.mem_filter, decide_eq_true_eq]
    exact ⟨(heq _).mpr ((P.lang i q.1 q.2 hq as).mpr hm), (M.comb.accepting _).mpr ⟨i, hi, rfl⟩⟩
  have ha := M.acceptOf (M.built.walk_ne hw hwk) hu
  cases hf : u.filter (fun x => decide (x ∈ N.acceptingStates)) with
  | nil => rw [hf] at hmem; simp at hmem
  | cons b l =>
    rw [hf] at ha
    have hacc : lx.Acc w b := ⟨hw, t, hwk, ha⟩
    obtain ⟨j, rfl, hj⟩ := fwd b hacc
    rw [pToken_unique hT hj]
    exact hacc

theorem Made.plongest (M : Made toks lx N acc al D s0) (P : PCombined toks N acc) {input w a}
    (h : LongestAcc lx input w a) : ∃ i, a = acc i ∧ LongestToken (PToken al toks) input w i := by
  obtain ⟨i, rfl, hi⟩ := (M.acc_iff P h.1.1).mp h.1
  refine ⟨i, rfl, h.1.1, h.2.1, hi, ?_⟩
  intro v j hv hlt hj
  have hne : v ≠ [] := by rintro rfl; simp at hlt
  exact h.2.2 v _ hv hlt ((M.acc_iff P hne).mpr ⟨j, rfl, hj⟩)

theorem Made.munch (M : Made toks lx N acc al D s0) (P : PCombined toks N acc) (full : Str) {k input out dr}
    (h : Run lx k input out dr) : ∃ out', Munch (PToken al toks) (PViable al toks) k input out' dr ∧
      out.mapM (lx.piece full) = out'.mapM (expected toks full) := by
  have viable : ∀ w, (lx.dfa.walk 0 w).isSome = true ↔ PViable al toks w := fun w => M.built.walk_reads P.leaves
  induction h with
  | done => exact ⟨[], .done, rfl⟩
  | ws h1 hf _ ih =>
    obtain ⟨out', h3, h4⟩ := ih
    refine ⟨out', .blank (blank_iff.mp h1) ?_ h3, h4⟩
    rw [← viable, walk_single]
    simpa using hf
  | tok h1 h2 h5 _ ih =>
    obtain ⟨out', h3, h4⟩ := ih
    obtain ⟨i, rfl, hm⟩ := M.plongest P h1
    obtain ⟨_, _, ⟨q, hi, _⟩, _⟩ := hm.2.2.1
    refine ⟨(_, i, _) :: out', .tok hm h2 ?_ h3, ?_⟩
    · rw [← viable, h5]; simp
    · simp only [List.mapM_cons, M.piece hi h1.1.1, h4]
  | tokEnd h1 h2 h5 =>
    obtain ⟨i, rfl, hm⟩ := M.plongest P h1
    obtain ⟨_, _, ⟨q, hi, _⟩, _⟩ := hm.2.2.1
    refine ⟨[(_, i, _)], .tokEnd hm h2 ((viable _).mp h5), ?_⟩
    simp only [List.mapM_cons, M.piece hi h1.1.1, List.mapM_nil]
  | stop h1 h2 =>
    refine ⟨[], .stop ?_ ?_, rfl⟩
    · intro v i hne hvp hm
      exact h1 v _ hvp ((M.acc_iff P hne).mpr ⟨i, rfl, hm⟩)
    · rw [← blank_iff, ← viable, walk_single]
      simpa using h2

end Lex
end Verif
