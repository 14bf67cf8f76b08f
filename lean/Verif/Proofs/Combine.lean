import Verif.Model.Lex
import Verif.Proofs.NfaLabels
import Mathlib.Data.List.Forall2

/-! The combined lexer automaton is the disjoint union of the token automata. -/

namespace Verif
open Spec

namespace Lex

/-- Components of the combined automaton: offset, token, automaton. -/
def comps : Nat → List (TokenDef × Nfa) → List (Nat × TokenDef × Nfa)
  | _, [] => []
  | so, (t, n) :: rest => (so, t, n) :: comps (so + n.states.length) rest

def shiftE (o : Nat) (e : NEdge) : NEdge := ⟨e.src + o, e.label, e.dst + o⟩

def compEdges (cs : List (Nat × TokenDef × Nfa)) : List NEdge :=
  cs.flatMap fun c => c.2.2.edges.map (shiftE c.1)

theorem comps_ge : ∀ (ns : List (TokenDef × Nfa)) (so : Nat), ∀ c ∈ comps so ns, so ≤ c.1
  | [], _, c, h => by simp [comps] at h
  | (t, n) :: rest, so, c, h => by
    rcases List.mem_cons.mp h with rfl | h
    · exact Nat.le_refl _
    · have := comps_ge rest _ c h; omega

theorem comps_pairwise : ∀ (ns : List (TokenDef × Nfa)) (so : Nat),
    (comps so ns).Pairwise fun a b => a.1 + a.2.2.states.length ≤ b.1
  | [], _ => .nil
  | (t, n) :: rest, so => by
    rw [comps, List.pairwise_cons]
    exact ⟨fun c h => comps_ge rest _ c h, comps_pairwise rest _⟩

theorem comps_mem : ∀ (ns : List (TokenDef × Nfa)) (so : Nat) c, c ∈ comps so ns → c.2 ∈ ns
  | [], _, c, h => by simp [comps] at h
  | (t, n) :: rest, so, c, h => by
    rcases List.mem_cons.mp h with rfl | h
    · simp
    · exact List.mem_cons_of_mem _ (comps_mem rest _ c h)

theorem comps_map : ∀ (ns : List (TokenDef × Nfa)) (so : Nat), (comps so ns).map Prod.snd = ns
  | [], _ => rfl
  | (t, n) :: rest, so => by simp [comps, comps_map rest]

theorem length_comps (ns : List (TokenDef × Nfa)) (so : Nat) : (comps so ns).length = ns.length := by
  have := congrArg List.length (comps_map ns so)
  simpa using this

/-! ### template -/

theorem templateLoop_edges : ∀ (ns : List (TokenDef × Nfa)) (off : Nat) (n : Nfa),
    (Nfa.templateLoop off (ns.map fun p => p.2.states.length) n).edges =
      n.edges ++ (comps off ns).map fun c => ⟨0, none, c.1⟩
  | [], _, n => by simp [Nfa.templateLoop, comps]
  | (t, m) :: rest, off, n => by
    simp only [List.map_cons, Nfa.templateLoop, templateLoop_edges rest, comps]
    simp [Nfa.START]

theorem templateLoop_states : ∀ (ns : List (TokenDef × Nfa)) (off : Nat) (n : Nfa) (i : Nat),
    n.states = [⟨some i, false⟩] →
    (Nfa.templateLoop off (ns.map fun p => p.2.states.length) n).states = [⟨some i, false⟩]
  | [], _, n, i, h => by simpa [Nfa.templateLoop] using h
  | (t, m) :: rest, off, n, i, h => by
    simp only [List.map_cons, Nfa.templateLoop]
    exact templateLoop_states rest _ _ i (by simp [Nfa.pushEdge, h, Nfa.START])

theorem template_states (ns : List (TokenDef × Nfa)) :
    (Nfa.template (ns.map fun p => p.2.states.length)).states =
      [⟨if ns = [] then none else some 0, false⟩] := by
  cases ns with
  | nil => rfl
  | cons p rest =>
    simp only [Nfa.template, List.map_cons, Nfa.templateLoop, reduceCtorEq, if_false]
    exact templateLoop_states rest _ _ 0 (by simp [Nfa.pushEdge, Nfa.START])

theorem template_edges (ns : List (TokenDef × Nfa)) :
    (Nfa.template (ns.map fun p => p.2.states.length)).edges =
      (comps 1 ns).map fun c => ⟨0, none, c.1⟩ := by
  simp [Nfa.template, templateLoop_edges]

/-! ### shifting -/

/-- Shifted states, edge offsets starting at `eo`. -/
def compStates : Nat → List (TokenDef × Nfa) → List NState
  | _, [] => []
  | eo, (_, n) :: rest =>
    (n.states.map fun s => { s with first := s.first.map (· + eo) }) ++
      compStates (eo + n.edges.length) rest

theorem appendAll_eq : ∀ (ns : List Nfa) (b : Nfa), appendAll b ns =
    ⟨b.edges ++ ns.flatMap Nfa.edges, b.states ++ ns.flatMap Nfa.states⟩
  | [], b => by simp [appendAll]
  | n :: ns, b => by
    have := appendAll_eq ns ⟨b.edges ++ n.edges, b.states ++ n.states⟩
    simp only [appendAll, List.foldl_cons] at this ⊢
    rw [this]; simp

theorem shiftLoop_fst : ∀ (ns : List (TokenDef × Nfa)) (so eo : Nat) (m : List (Nat × TokenDef)),
    (shiftLoop so eo ns m).1.flatMap Nfa.edges = compEdges (comps so ns) ∧
    (shiftLoop so eo ns m).1.flatMap Nfa.states = compStates eo ns
  | [], _, _, _ => by simp [shiftLoop, compEdges, comps, compStates]
  | (t, n) :: rest, so, eo, m => by
    simp only [shiftLoop]
    have := shiftLoop_fst rest (so + (n.shift so eo).states.length) (eo + (n.shift so eo).edges.length)
      (n.acceptingStates.foldl (fun m a => minsert (a + so) t m) m)
    simp only [List.flatMap_cons, this]
    simp [compEdges, comps, compStates, Nfa.shift, shiftE]

theorem combine_nfa (ns : List (TokenDef × Nfa)) : (combine ns).1 =
    ⟨((comps 1 ns).map fun c => ⟨0, none, c.1⟩) ++ compEdges (comps 1 ns),
     ⟨if ns = [] then none else some 0, false⟩ :: compStates ns.length ns⟩ := by
  simp only [combine]
  rw [appendAll_eq, (shiftLoop_fst ns 1 ns.length []).1, (shiftLoop_fst ns 1 ns.length []).2,
    template_edges, template_states]
  simp

/-- What is needed of each token automaton. -/
structure CompOk (n : Nfa) : Prop where
  wf : n.WF
  len : 2 ≤ n.states.length
  acc : ∀ s x, n.states[s]? = some x → (x.acc = true ↔ s = 1)
  bound : ∀ e ∈ n.edges, e.src < n.states.length ∧ e.dst < n.states.length

theorem _root_.Verif.Nfa.Good.compOk {n : Nfa} {L K V} (h : n.Good L K V) : CompOk n :=
  ⟨h.wf, h.len, h.acc, h.bound⟩

theorem mem_compEdges {cs : List (Nat × TokenDef × Nfa)} {e : NEdge} :
    e ∈ compEdges cs ↔ ∃ c ∈ cs, ∃ e' ∈ c.2.2.edges, e = shiftE c.1 e' := by
  simp only [compEdges, List.mem_flatMap, List.mem_map]
  constructor
  · rintro ⟨c, hc, e', he, rfl⟩; exact ⟨c, hc, e', he, rfl⟩
  · rintro ⟨c, hc, e', he, rfl⟩; exact ⟨c, hc, e', he, rfl⟩

theorem adj_comps : ∀ (ns : List (TokenDef × Nfa)) (P : List NEdge) (Q : List NState),
    (∀ p ∈ ns, CompOk p.2) → (∀ e ∈ P, e.src < Q.length) → ∀ s, Q.length ≤ s →
    (Nfa.mk (P ++ compEdges (comps Q.length ns)) (Q ++ compStates P.length ns)).Adj s
  | [], P, Q, _, hP, s, hs => by
    unfold Nfa.Adj
    simp only [compStates, List.append_nil, comps, compEdges, List.flatMap_nil]
    rw [List.getElem?_eq_none hs]
    simp only [Option.bind_none]
    intro e he heq
    have := hP e he; omega
  | (t, n) :: rest, P, Q, hns, hP, s, hs => by
    have hn := hns (t, n) (by simp)
    simp only at hn
    have restGe : ∀ e ∈ compEdges (comps (Q.length + n.states.length) rest),
        Q.length + n.states.length ≤ e.src := by
      intro e he
      obtain ⟨c, hc, e', -, rfl⟩ := mem_compEdges.mp he
      have := comps_ge _ _ c hc
      simp only [shiftE]; omega
    by_cases hlt : s < Q.length + n.states.length
    · have hadj := hn.wf (s - Q.length)
      unfold Nfa.Adj at hadj ⊢
      simp only [compStates, comps, compEdges, List.flatMap_cons]
      have hget : (Q ++ (n.states.map (fun s => { s with first := s.first.map (· + P.length) }) ++
          compStates (P.length + n.edges.length) rest))[s]? =
          (n.states[s - Q.length]?).map fun s => { s with first := s.first.map (· + P.length) } := by
        rw [List.getElem?_append_right hs, List.getElem?_append_left (by simp; omega)]
        simp
      rw [hget]
      have hlt' : s - Q.length < n.states.length := by omega
      rw [List.getElem?_eq_getElem hlt'] at hadj ⊢
      simp only [Option.map_some, Option.bind_some] at hadj ⊢
      cases hf : (n.states[s - Q.length]'hlt').first with
      | none =>
        rw [hf] at hadj
        simp only [Option.map_none] at hadj ⊢
        intro e he heq
        rcases List.mem_append.mp he with he | he
        · have := hP e he; omega
        · rcases List.mem_append.mp he with he | he
          · obtain ⟨e', he', rfl⟩ := List.mem_map.mp he
            simp only [shiftE] at heq
            exact hadj e' he' (by omega)
          · have := restGe e he; omega
      | some i =>
        rw [hf] at hadj
        simp only [Option.map_some] at hadj ⊢
        obtain ⟨A, B, C, h1, h2, h3, h4, h5, h6⟩ := hadj
        refine ⟨P ++ A.map (shiftE Q.length), B.map (shiftE Q.length),
          C.map (shiftE Q.length) ++ compEdges (comps (Q.length + n.states.length) rest), ?_, ?_, ?_, ?_, ?_, ?_⟩
        · rw [h1]; simp [compEdges]
        · simp [h2]; omega
        · simpa using h3
        · intro e he
          obtain ⟨e', he', rfl⟩ := List.mem_map.mp he
          have := h4 e' he'
          simp only [shiftE]; omega
        · intro e he heq
          rcases List.mem_append.mp he with he | he
          · have := hP e he; omega
          · obtain ⟨e', he', rfl⟩ := List.mem_map.mp he
            simp only [shiftE] at heq
            exact h5 e' he' (by omega)
        · intro e he heq
          rcases List.mem_append.mp he with he | he
          · obtain ⟨e', he', rfl⟩ := List.mem_map.mp he
            simp only [shiftE] at heq
            exact h6 e' he' (by omega)
          · have := restGe e he; omega
    · have := adj_comps rest (P ++ n.edges.map (shiftE Q.length))
        (Q ++ n.states.map fun s => { s with first := s.first.map (· + P.length) })
        (fun p hp => hns p (by simp [hp])) (by
          intro e he
          rw [List.length_append, List.length_map]
          rcases List.mem_append.mp he with he | he
          · have := hP e he; omega
          · obtain ⟨e', he', rfl⟩ := List.mem_map.mp he
            have := hn.bound e' he'
            simp only [shiftE]; omega) s (by simp; omega)
      simpa [compStates, comps, compEdges] using this

theorem combine_wf {ns : List (TokenDef × Nfa)} (h : ∀ p ∈ ns, CompOk p.2) : (combine ns).1.WF := by
  intro s
  rw [combine_nfa]
  by_cases hs : s = 0
  · subst hs
    unfold Nfa.Adj
    simp only [List.getElem?_cons_zero, Option.bind_some]
    have hC : ∀ e ∈ compEdges (comps 1 ns), e.src ≠ 0 := by
      intro e he
      obtain ⟨c, hc, e', -, rfl⟩ := mem_compEdges.mp he
      have := comps_ge _ _ c hc
      simp only [shiftE]; omega
    by_cases hn : ns = []
    · subst hn; simp [comps, compEdges]
    · simp only [hn, if_false]
      refine ⟨[], (comps 1 ns).map fun c => ⟨0, none, c.1⟩, compEdges (comps 1 ns), by simp, rfl, ?_, ?_, by simp, hC⟩
      · intro hnil
        have := congrArg List.length hnil
        simp [length_comps] at this
        exact hn this
      · intro e he
        obtain ⟨c, _, rfl⟩ := List.mem_map.mp he
        rfl
  · have := adj_comps ns ((comps 1 ns).map fun c => ⟨0, none, c.1⟩)
      [⟨if ns = [] then none else some 0, false⟩] h (by
        intro e he
        obtain ⟨c, _, rfl⟩ := List.mem_map.mp he
        simp) s (by simp; omega)
    simpa [length_comps] using this

theorem length_compStates : ∀ (ns : List (TokenDef × Nfa)) (eo so : Nat), ∀ c ∈ comps so ns,
    c.1 + c.2.2.states.length ≤ so + (compStates eo ns).length
  | [], _, _, c, h => by simp [comps] at h
  | (t, n) :: rest, eo, so, c, h => by
    rcases List.mem_cons.mp h with rfl | h
    · simp [compStates]
    · have := length_compStates rest (eo + n.edges.length) _ c h
      simp [compStates]; omega

theorem combine_bound {ns : List (TokenDef × Nfa)} (h : ∀ p ∈ ns, CompOk p.2) :
    ∀ e ∈ (combine ns).1.edges, e.src < (combine ns).1.states.length ∧
      e.dst < (combine ns).1.states.length := by
  intro e he
  rw [combine_nfa] at he ⊢
  simp only [List.length_cons]
  rcases List.mem_append.mp he with he | he
  · obtain ⟨c, hc, rfl⟩ := List.mem_map.mp he
    have := length_compStates ns ns.length 1 c hc
    have := (h _ (comps_mem _ _ c hc)).len
    simp only; omega
  · obtain ⟨c, hc, e', he', rfl⟩ := mem_compEdges.mp he
    have := length_compStates ns ns.length 1 c hc
    have := (h _ (comps_mem _ _ c hc)).bound e' he'
    simp only [shiftE]; omega

/-! ### reachability -/

theorem path_shift {es es' : List NEdge} {o : Nat} (h : ∀ e ∈ es, shiftE o e ∈ es') {s w t}
    (p : Path es s w t) : Path es' (s + o) w (t + o) := by
  induction p with
  | nil s => exact .nil _
  | eps a b c _ ih => exact .eps (h _ a) (by simp [shiftE, b]) (by simpa [shiftE] using c) (by simpa [shiftE] using ih)
  | chr a b c d e _ ih =>
    exact .chr (h _ a) (by simp [shiftE, b]) (by simpa [shiftE] using c) d e (by simpa [shiftE] using ih)

theorem path_unshift {es es' : List NEdge} {o len : Nat}
    (h : ∀ e ∈ es', o ≤ e.src → e.src < o + len → ∃ e' ∈ es, e = shiftE o e' ∧ e'.dst < len) {s' w t'}
    (p : Path es' s' w t') : ∀ s < len, s' = s + o → ∃ t < len, t' = t + o ∧ Path es s w t := by
  induction p with
  | nil s' => intro s hs hs'; exact ⟨s, hs, hs', .nil _⟩
  | eps a b c _ ih =>
    intro s hs hs'
    obtain ⟨e', he', rfl, hd⟩ := h _ a (by omega) (by omega)
    obtain ⟨t, ht, h1, h2⟩ := ih e'.dst hd rfl
    exact ⟨t, ht, h1, .eps he' (by simp [shiftE] at b; omega) (by simpa [shiftE] using c) h2⟩
  | chr a b c d e _ ih =>
    intro s hs hs'
    obtain ⟨e', he', rfl, hd⟩ := h _ a (by omega) (by omega)
    obtain ⟨t, ht, h1, h2⟩ := ih e'.dst hd rfl
    exact ⟨t, ht, h1, .chr he' (by simp [shiftE] at b; omega) (by simpa [shiftE] using c) d e h2⟩

theorem comps_eq_of_overlap {ns : List (TokenDef × Nfa)} {so : Nat} {c d : Nat × TokenDef × Nfa} {x : Nat}
    (hc : c ∈ comps so ns) (hd : d ∈ comps so ns) (h1 : c.1 ≤ x) (h2 : x < c.1 + c.2.2.states.length)
    (h3 : d.1 ≤ x) (h4 : x < d.1 + d.2.2.states.length) : c = d := by
  have hp := comps_pairwise ns so
  obtain ⟨i, hi, rfl⟩ := List.mem_iff_getElem.mp hc
  obtain ⟨j, hj, rfl⟩ := List.mem_iff_getElem.mp hd
  rcases Nat.lt_trichotomy i j with hij | hij | hij
  · have := (List.pairwise_iff_getElem.mp hp) i j hi hj hij; omega
  · subst hij; rfl
  · have := (List.pairwise_iff_getElem.mp hp) j i hj hi hij; omega

theorem comp_edge {ns : List (TokenDef × Nfa)} (h : ∀ p ∈ ns, CompOk p.2)
    {c : Nat × TokenDef × Nfa} (hc : c ∈ comps 1 ns) : ∀ e ∈ (combine ns).1.edges,
    c.1 ≤ e.src → e.src < c.1 + c.2.2.states.length →
    ∃ e' ∈ c.2.2.edges, e = shiftE c.1 e' ∧ e'.dst < c.2.2.states.length := by
  intro e he h1 h2
  rw [combine_nfa] at he
  have hge := comps_ge _ _ c hc
  rcases List.mem_append.mp he with he | he
  · obtain ⟨d, _, rfl⟩ := List.mem_map.mp he
    simp only at h1; omega
  · obtain ⟨d, hd, e', he', rfl⟩ := mem_compEdges.mp he
    have hb := (h _ (comps_mem _ _ d hd)).bound e' he'
    simp only [shiftE] at h1 h2
    have : c = d := comps_eq_of_overlap hc hd h1 h2 (by omega) (by omega)
    subst this
    exact ⟨e', he', rfl, hb.2⟩

theorem path_comp {ns : List (TokenDef × Nfa)} (h : ∀ p ∈ ns, CompOk p.2)
    {c : Nat × TokenDef × Nfa} (hc : c ∈ comps 1 ns) {s : Nat} (hs : s < c.2.2.states.length)
    {w x} : Path (combine ns).1.edges (s + c.1) w x ↔
      ∃ y < c.2.2.states.length, x = y + c.1 ∧ Path c.2.2.edges s w y := by
  constructor
  · intro p
    exact path_unshift (comp_edge h hc) p s hs rfl
  · rintro ⟨y, hy, rfl, p⟩
    refine path_shift ?_ p
    intro e he
    rw [combine_nfa]
    exact List.mem_append_right _ (mem_compEdges.mpr ⟨c, hc, e, he, rfl⟩)

theorem path_start {ns : List (TokenDef × Nfa)} (h : ∀ p ∈ ns, CompOk p.2) {w x} :
    Path (combine ns).1.edges 0 w x ↔ (w = [] ∧ x = 0) ∨
      ∃ c ∈ comps 1 ns, ∃ y < c.2.2.states.length, x = y + c.1 ∧ Path c.2.2.edges 0 w y := by
  constructor
  · intro p
    have edge0 : ∀ e ∈ (combine ns).1.edges, e.src = 0 → ∃ c ∈ comps 1 ns, e = ⟨0, none, c.1⟩ := by
      intro e he hs
      rw [combine_nfa] at he
      rcases List.mem_append.mp he with he | he
      · obtain ⟨d, hd, rfl⟩ := List.mem_map.mp he
        exact ⟨d, hd, rfl⟩
      · obtain ⟨d, hd, e', he', rfl⟩ := mem_compEdges.mp he
        have := comps_ge _ _ d hd
        simp only [shiftE] at hs; omega
    cases p with
    | nil => exact .inl ⟨rfl, rfl⟩
    | eps a b c' p =>
      obtain ⟨c, hc, rfl⟩ := edge0 _ a b
      have hl := (h _ (comps_mem _ _ c hc)).len
      refine .inr ⟨c, hc, ?_⟩
      exact (path_comp h hc (s := 0) (by omega)).mp (by simpa using p)
    | chr a b c' _ _ p =>
      obtain ⟨c, hc, rfl⟩ := edge0 _ a b
      simp at c'
  · rintro (⟨rfl, rfl⟩ | ⟨c, hc, hp⟩)
    · exact .nil _
    · have hl := (h _ (comps_mem _ _ c hc)).len
      have := (path_comp h hc (s := 0) (by omega)).mpr hp
      refine .eps (e := ⟨0, none, c.1⟩) ?_ rfl rfl (by simpa using this)
      rw [combine_nfa]
      exact List.mem_append_left _ (List.mem_map.mpr ⟨c, hc, rfl⟩)

/-! ### accepting states and the token map -/

theorem acc_comp : ∀ (ns : List (TokenDef × Nfa)) (eo so : Nat), (∀ p ∈ ns, CompOk p.2) → ∀ (k : Nat) (x : NState),
    (compStates eo ns)[k]? = some x → (x.acc = true ↔ ∃ c ∈ comps so ns, k + so = c.1 + 1)
  | [], _, _, _, k, x, hx => by simp [compStates] at hx
  | (t, n) :: rest, eo, so, h, k, x, hx => by
    have hn := h (t, n) (by simp)
    simp only at hn
    simp only [compStates] at hx
    by_cases hk : k < n.states.length
    · rw [List.getElem?_append_left (by simpa using hk), List.getElem?_map,
        List.getElem?_eq_getElem hk] at hx
      simp only [Option.map_some, Option.some.injEq] at hx
      subst hx
      simp only
      rw [hn.acc k _ (List.getElem?_eq_getElem hk)]
      constructor
      · rintro rfl; exact ⟨(so, t, n), by simp [comps], by simp only; omega⟩
      · rintro ⟨c, hc, heq⟩
        rcases List.mem_cons.mp hc with rfl | hc
        · simp only at heq; omega
        · have := comps_ge _ _ c hc; omega
    · rw [List.getElem?_append_right (by simpa using hk)] at hx
      simp only [List.length_map] at hx
      rw [acc_comp rest (eo + n.edges.length) (so + n.states.length) (fun p hp => h p (by simp [hp])) _ _ hx]
      simp only [comps, List.mem_cons, exists_eq_or_imp]
      constructor
      · rintro ⟨c, hc, heq⟩; exact .inr ⟨c, hc, by omega⟩
      · rintro (heq | ⟨c, hc, heq⟩)
        · have := hn.len; omega
        · exact ⟨c, hc, by omega⟩

theorem combine_accepting {ns : List (TokenDef × Nfa)} (h : ∀ p ∈ ns, CompOk p.2) (x : Nat) :
    x ∈ (combine ns).1.acceptingStates ↔ ∃ c ∈ comps 1 ns, x = c.1 + 1 := by
  have hlen := fun c hc => length_compStates ns ns.length 1 c hc
  rw [combine_nfa]
  simp only [Nfa.acceptingStates, List.mem_filter, List.mem_range, List.length_cons]
  constructor
  · rintro ⟨h1, h2⟩
    cases x with
    | zero => simp at h2
    | succ k =>
      simp only [List.getElem?_cons_succ] at h2
      have hk : k < (compStates ns.length ns).length := by omega
      rw [List.getElem?_eq_getElem hk] at h2
      obtain ⟨c, hc, heq⟩ := (acc_comp ns ns.length 1 h k _ (List.getElem?_eq_getElem hk)).mp (by simpa using h2)
      exact ⟨c, hc, heq⟩
  · rintro ⟨c, hc, rfl⟩
    have h1 := hlen c hc
    have h2 := (h _ (comps_mem _ _ c hc)).len
    have hk : c.1 < (compStates ns.length ns).length := by omega
    refine ⟨by omega, ?_⟩
    simp only [List.getElem?_cons_succ]
    rw [List.getElem?_eq_getElem hk]
    simpa using (acc_comp ns ns.length 1 h c.1 _ (List.getElem?_eq_getElem hk)).mpr ⟨c, hc, rfl⟩

theorem CompOk.acceptingStates {n : Nfa} (h : CompOk n) : n.acceptingStates = [1] := by
  have hlen := h.len
  obtain ⟨a, b, l, hl⟩ : ∃ a b l, n.states = a :: b :: l := by
    match hs : n.states with
    | [] => simp [hs] at hlen
    | [a] => simp [hs] at hlen
    | a :: b :: l => exact ⟨a, b, l, rfl⟩
  apply sorted_ext (α := Nat)
  · unfold Nfa.acceptingStates
    have : (List.range n.states.length).Pairwise (fun a b => a < b) := List.pairwise_lt_range
    exact (this.filter _).imp (by intro a b hab; simpa [blt, BOrd.blt] using hab)
  · exact List.pairwise_singleton _ _
  · intro x
    unfold Nfa.acceptingStates
    simp only [List.mem_filter, List.mem_range, List.mem_singleton]
    constructor
    · rintro ⟨h1, h2⟩
      rw [List.getElem?_eq_getElem h1] at h2
      exact (h.acc x _ (List.getElem?_eq_getElem h1)).mp (by simpa using h2)
    · rintro rfl
      refine ⟨by omega, ?_⟩
      rw [List.getElem?_eq_getElem (by omega)]
      simpa using (h.acc 1 _ (List.getElem?_eq_getElem (by omega))).mpr rfl

theorem shiftLoop_snd : ∀ (ns : List (TokenDef × Nfa)) (so eo : Nat) (m : List (Nat × TokenDef)),
    (∀ p ∈ ns, CompOk p.2) →
    (shiftLoop so eo ns m).2 = (comps so ns).foldl (fun m c => minsert (c.1 + 1) c.2.1 m) m
  | [], _, _, _, _ => by simp [shiftLoop, comps]
  | (t, n) :: rest, so, eo, m, h => by
    simp only [shiftLoop, comps, List.foldl_cons]
    rw [shiftLoop_snd rest _ _ _ (fun p hp => h p (by simp [hp])), (h (t, n) (by simp)).acceptingStates]
    simp [Nfa.shift, Nat.add_comm]

theorem minsert_last {κ ν : Type} [BOrd κ] [LawfulBOrd κ] {k : κ} {v : ν} :
    ∀ {m : List (κ × ν)}, (∀ p ∈ m, blt p.1 k = true) → minsert k v m = m ++ [(k, v)]
  | [], _ => rfl
  | (k', v') :: m, h => by
    have h1 := h (k', v') (by simp)
    simp only at h1
    have h2 : blt k k' = false := blt_asymm h1
    simp only [minsert, h1, h2, List.cons_append]
    simp [minsert_last (m := m) (fun p hp => h p (by simp [hp]))]

theorem foldl_minsert_comps : ∀ (cs : List (Nat × TokenDef × Nfa)) (m : List (Nat × TokenDef)),
    cs.Pairwise (fun a b => a.1 < b.1) → (∀ p ∈ m, ∀ c ∈ cs, p.1 < c.1 + 1) →
    cs.foldl (fun m c => minsert (c.1 + 1) c.2.1 m) m = m ++ cs.map fun c => (c.1 + 1, c.2.1)
  | [], m, _, _ => by simp
  | c :: cs, m, hp, hm => by
    rw [List.pairwise_cons] at hp
    simp only [List.foldl_cons]
    rw [minsert_last (by
      intro p hp'
      simpa [blt, BOrd.blt] using hm p hp' c (by simp)), foldl_minsert_comps cs _ hp.2 ?_]
    · simp
    · intro p hp' d hd
      rcases List.mem_append.mp hp' with hp' | hp'
      · exact hm p hp' d (by simp [hd])
      · simp only [List.mem_singleton] at hp'; subst hp'
        have := hp.1 d hd
        simp only; omega

theorem comps_lt {ns : List (TokenDef × Nfa)} (h : ∀ p ∈ ns, CompOk p.2) (so : Nat) :
    (comps so ns).Pairwise (fun a b => a.1 < b.1) := by
  have hp := comps_pairwise ns so
  rw [List.pairwise_iff_getElem] at hp ⊢
  intro i j hi hj hij
  have := hp i j hi hj hij
  have := (h _ (comps_mem _ _ _ (List.getElem_mem hi))).len
  omega

theorem combine_tokens {ns : List (TokenDef × Nfa)} (h : ∀ p ∈ ns, CompOk p.2) :
    (combine ns).2 = (comps 1 ns).map fun c => (c.1 + 1, c.2.1) := by
  simp only [combine]
  rw [shiftLoop_snd ns _ _ _ h, foldl_minsert_comps _ _ (comps_lt h 1) (by simp)]
  simp

/-! ### specification of the combined automaton -/

theorem buildNfas_spec : ∀ (toks : List (TokenDef × Hir)) (ns : List (TokenDef × Nfa)),
    buildNfas toks = .ok ns →
    List.Forall₂ (fun (a : TokenDef × Hir) (b : TokenDef × Nfa) => a.1 = b.1 ∧ Nfa.fromRegex a.2 = .ok b.2) toks ns
  | [], ns, h => by cases h; exact .nil
  | (t, hr) :: rest, ns, h => by
    simp only [buildNfas] at h
    cases h1 : Nfa.fromRegex hr with
    | error e => simp [h1, bind, Except.bind] at h
    | ok n =>
      cases h2 : buildNfas rest with
      | error e => simp [h1, h2, bind, Except.bind] at h
      | ok ns' =>
        simp only [h1, h2, bind, Except.bind, pure, Except.pure, Except.ok.injEq] at h
        subst h
        exact .cons ⟨rfl, h1⟩ (buildNfas_spec rest ns' h2)

theorem buildNfas_ok_iff : ∀ (toks : List (TokenDef × Hir)),
    (∃ ns, buildNfas toks = .ok ns) ↔ ∀ p ∈ toks, ∃ n, Nfa.fromRegex p.2 = .ok n
  | [] => by simp [buildNfas]
  | (t, hr) :: rest => by
    have ih := buildNfas_ok_iff rest
    simp only [List.mem_cons, forall_eq_or_imp, ← ih, buildNfas]
    constructor
    · rintro ⟨ns, h⟩
      cases h1 : Nfa.fromRegex hr with
      | error e => simp [h1, bind, Except.bind] at h
      | ok n =>
        cases h2 : buildNfas rest with
        | error e => simp [h1, h2, bind, Except.bind] at h
        | ok ns' => exact ⟨⟨n, rfl⟩, ⟨ns', rfl⟩⟩
    · rintro ⟨⟨n, h1⟩, ⟨ns', h2⟩⟩
      exact ⟨(t, n) :: ns', by simp [h1, h2, bind, Except.bind, pure, Except.pure]⟩

/-- The combined automaton `N` with token map `m` recognises the token list:
`acc i` is the accepting state of token `i`. -/
structure Combined (toks : List (TokenDef × Hir)) (N : Nfa) (m : List (Nat × TokenDef))
    (acc : Nat → Nat) : Prop where
  wf : N.WF
  start : 0 < N.states.length
  bound : ∀ e ∈ N.edges, e.src < N.states.length ∧ e.dst < N.states.length
  into : ∀ e ∈ N.edges, e.dst ≠ 0
  labels : ∀ m, N.Lab m ↔ ∃ p ∈ toks, m ∈ ranges p.2
  mono : ∀ i j, i < j → j < toks.length → acc i < acc j
  pos : ∀ i, i < toks.length → 0 < acc i
  accepting : ∀ x, x ∈ N.acceptingStates ↔ ∃ i, i < toks.length ∧ x = acc i
  tokens : m = (List.range toks.length).map fun i => (acc i, (toks.map Prod.fst).getD i ⟨[], false, none⟩)
  lang : ∀ i t h, toks[i]? = some (t, h) → ∀ w, Path N.edges 0 w (acc i) ↔ Matches h w
  next : ∀ w l, (∃ e ∈ N.edges, e.label = some l ∧ Path N.edges 0 w e.src) ↔ ∃ p ∈ toks, Next p.2 w l
  co : (∀ p ∈ toks, NonVoid p.2) → toks ≠ [] → ∀ w x, Path N.edges 0 w x →
    ∃ v i, i < toks.length ∧ Path N.edges x v (acc i)

theorem combined {toks : List (TokenDef × Hir)} {ns : List (TokenDef × Nfa)}
    (hb : buildNfas toks = .ok ns) :
    ∃ acc, Combined toks (combine ns).1 (combine ns).2 acc := by
  have hf := buildNfas_spec toks ns hb
  have hlen := hf.length_eq
  have hget : ∀ i (h1 : i < toks.length) (h2 : i < ns.length),
      toks[i].1 = ns[i].1 ∧ Nfa.fromRegex toks[i].2 = .ok ns[i].2 := by
    intro i h1 h2
    have := (List.forall₂_iff_get.mp hf).2 i h1 h2
    simpa using this
  have hok : ∀ p ∈ ns, CompOk p.2 := by
    intro p hp
    obtain ⟨i, hi, rfl⟩ := List.mem_iff_getElem.mp hp
    exact (Nfa.fromRegex_good (hget i (by omega) hi).2).compOk
  have hcl : (comps 1 ns).length = toks.length := by rw [length_comps, hlen]
  have hcs : ∀ i (h1 : i < (comps 1 ns).length) (h2 : i < ns.length), (comps 1 ns)[i].2 = ns[i] := by
    intro i h1 h2
    have : ((comps 1 ns).map Prod.snd)[i]'(by simpa using h1) = ns[i] := by
      simp only [comps_map]
    simpa using this
  let acc : Nat → Nat := fun i => (((comps 1 ns)[i]?).map fun c => c.1 + 1).getD 0
  have hacc : ∀ i (h : i < (comps 1 ns).length), acc i = (comps 1 ns)[i].1 + 1 := by
    intro i h
    simp [acc, List.getElem?_eq_getElem h]
  have hstart : 0 < (combine ns).1.states.length := by rw [combine_nfa]; simp
  refine ⟨acc, combine_wf hok, hstart, combine_bound hok, ?_, ?_, ?_, ?_, ?_, ?_, ?_, ?_, ?_⟩
  · intro e he
    rw [combine_nfa] at he
    rcases List.mem_append.mp he with he | he
    · obtain ⟨c, hc, rfl⟩ := List.mem_map.mp he
      have := comps_ge _ _ c hc
      simp only; omega
    · obtain ⟨c, hc, e', he', rfl⟩ := mem_compEdges.mp he
      have := comps_ge _ _ c hc
      simp only [shiftE]; omega
  · intro m
    have key : (combine ns).1.Lab m ↔ ∃ c ∈ comps 1 ns, c.2.2.Lab m := by
      rw [combine_nfa]
      constructor
      · rintro ⟨e, he, hl⟩
        rcases List.mem_append.mp he with he | he
        · obtain ⟨c, hc, rfl⟩ := List.mem_map.mp he
          simp at hl
        · obtain ⟨c, hc, e', he', rfl⟩ := mem_compEdges.mp he
          exact ⟨c, hc, e', he', hl⟩
      · rintro ⟨c, hc, e', he', hl⟩
        exact ⟨shiftE c.1 e', List.mem_append_right _ (mem_compEdges.mpr ⟨c, hc, e', he', rfl⟩), hl⟩
    rw [key]
    constructor
    · rintro ⟨c, hc, hl⟩
      obtain ⟨i, hi, rfl⟩ := List.mem_iff_getElem.mp hc
      rw [hcs i hi (by omega)] at hl
      exact ⟨_, List.getElem_mem (show i < toks.length by omega),
        (Nfa.lab_fromRegex (hget i (by omega) (by omega)).2 m).mp hl⟩
    · rintro ⟨p, hp, hm⟩
      obtain ⟨i, hi, rfl⟩ := List.mem_iff_getElem.mp hp
      refine ⟨_, List.getElem_mem (show i < (comps 1 ns).length by omega), ?_⟩
      rw [hcs i (by omega) (by omega)]
      exact (Nfa.lab_fromRegex (hget i (by omega) (by omega)).2 m).mpr hm
  · intro i j hij hj
    rw [hacc i (by omega), hacc j (by omega)]
    have := (List.pairwise_iff_getElem.mp (comps_lt hok 1)) i j (by omega) (by omega) hij
    omega
  · intro i hi
    rw [hacc i (by omega)]; omega
  · intro x
    rw [combine_accepting hok]
    constructor
    · rintro ⟨c, hc, rfl⟩
      obtain ⟨i, hi, rfl⟩ := List.mem_iff_getElem.mp hc
      exact ⟨i, by omega, (hacc i hi).symm⟩
    · rintro ⟨i, hi, rfl⟩
      exact ⟨_, List.getElem_mem (by omega), hacc i (by omega)⟩
  · rw [combine_tokens hok]
    apply List.ext_getElem
    · simp [hcl]
    · intro i h1 h2
      have hi : i < (comps 1 ns).length := by simpa using h1
      have hi2 : i < toks.length := by omega
      simp only [List.getElem_map, List.getElem_range]
      rw [hacc i hi, hcs i hi (by omega)]
      simp [List.getD, List.getElem?_eq_getElem hi2, (hget i hi2 (by omega)).1]
  · intro i t h hi w
    have hi2 : i < toks.length := (List.getElem?_eq_some_iff.mp hi).1
    have hti := (List.getElem?_eq_some_iff.mp hi).2
    have hic : i < (comps 1 ns).length := by omega
    have hg := hget i hi2 (by omega)
    rw [hti] at hg
    have hgood := Nfa.fromRegex_good hg.2
    rw [hacc i hic, path_start hok, ← hgood.lang w]
    have hmem : (comps 1 ns)[i] ∈ comps 1 ns := List.getElem_mem _
    constructor
    · rintro (⟨_, h0⟩ | ⟨c, hc, y, hy, heq, hp⟩)
      · omega
      · have hl := (hok _ (comps_mem _ _ _ hmem)).len
        have : c = (comps 1 ns)[i] :=
          comps_eq_of_overlap (x := y + c.1) hc hmem (by omega) (by omega) (by omega) (by omega)
        subst this
        have hy1 : y = 1 := by omega
        rw [hy1, hcs i hic (by omega)] at hp
        exact hp
    · intro hp
      refine .inr ⟨_, hmem, 1, ?_, by omega, ?_⟩
      · have hl := (hok _ (comps_mem _ _ _ hmem)).len; omega
      · rw [hcs i hic (by omega)]; exact hp
  · intro w l
    constructor
    · rintro ⟨e, he, hl, hp⟩
      rw [combine_nfa] at he
      rcases List.mem_append.mp he with he | he
      · obtain ⟨d, hd, rfl⟩ := List.mem_map.mp he
        simp at hl
      obtain ⟨c, hc, e', he', rfl⟩ := mem_compEdges.mp he
      have hge := comps_ge _ _ c hc
      have hb := (hok _ (comps_mem _ _ c hc)).bound e' he'
      rcases (path_start hok).mp hp with ⟨_, h0⟩ | ⟨d, hd, y, hy, heq, hp'⟩
      · simp only [shiftE] at h0; omega
      · simp only [shiftE] at heq hl
        have : c = d := comps_eq_of_overlap (x := y + d.1) hc hd (by omega) (by omega) (by omega) (by omega)
        subst this
        have hye : y = e'.src := by omega
        subst hye
        obtain ⟨i, hi, rfl⟩ := List.mem_iff_getElem.mp hc
        have hi2 : i < toks.length := by omega
        have hg := hget i hi2 (by omega)
        rw [hcs i hi (by omega)] at hp' he'
        exact ⟨_, List.getElem_mem hi2, (Nfa.fromRegex_good hg.2).next w e' l he' hl hp'⟩
    · rintro ⟨p, hp, hn⟩
      obtain ⟨i, hi, rfl⟩ := List.mem_iff_getElem.mp hp
      have hg := hget i hi (by omega)
      obtain ⟨e, he, hl, hpath⟩ := (Nfa.fromRegex_good hg.2).hit w l hn
      have hic : i < (comps 1 ns).length := by omega
      have hmem : (comps 1 ns)[i] ∈ comps 1 ns := List.getElem_mem _
      rw [← hcs i hic (by omega)] at he hpath
      refine ⟨shiftE (comps 1 ns)[i].1 e, ?_, hl, ?_⟩
      · rw [combine_nfa]
        exact List.mem_append_right _ (mem_compEdges.mpr ⟨_, hmem, e, he, rfl⟩)
      · exact (path_start hok).mpr (.inr ⟨_, hmem, e.src,
          ((hok _ (comps_mem _ _ _ hmem)).bound e he).1, rfl, hpath⟩)
  · intro hv hne w x hp
    have fin : ∀ c ∈ comps 1 ns, ∀ y < c.2.2.states.length,
        ∃ v i, i < toks.length ∧ Path (combine ns).1.edges (y + c.1) v (acc i) := by
      intro c hc y hy
      obtain ⟨i, hi, rfl⟩ := List.mem_iff_getElem.mp hc
      have hi2 : i < toks.length := by omega
      have hg := hget i hi2 (by omega)
      have hgood := Nfa.fromRegex_good hg.2
      have hv' := hv _ (List.getElem_mem hi2)
      rw [hcs i hi (by omega)] at hy
      obtain ⟨v, hp⟩ := hgood.co hv' y hy
      refine ⟨v, i, hi2, ?_⟩
      rw [hacc i hi]
      refine (path_comp hok hc (by rw [hcs i hi (by omega)]; exact hy)).mpr ⟨1, ?_, by omega, ?_⟩
      · have hl := (hok _ (comps_mem _ _ _ hc)).len; omega
      · rw [hcs i hi (by omega)]; exact hp
    rcases (path_start hok).mp hp with ⟨rfl, rfl⟩ | ⟨c, hc, y, hy, rfl, _⟩
    · have h0 : 0 < (comps 1 ns).length := by
        rw [hcl]; exact List.length_pos_iff.mpr hne
      have hc := List.getElem_mem h0
      have hl := (hok _ (comps_mem _ _ _ hc)).len
      obtain ⟨v, i, hi, hp⟩ := fin _ hc 0 (by omega)
      refine ⟨v, i, hi, ?_⟩
      refine .eps (e := ⟨0, none, (comps 1 ns)[0].1⟩) ?_ rfl rfl (by simpa using hp)
      rw [combine_nfa]
      exact List.mem_append_left _ (List.mem_map.mpr ⟨_, hc, rfl⟩)
    · exact fin c hc y hy

end Lex
end Verif
