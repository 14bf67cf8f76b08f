import Verif.Spec.Sizes
import Verif.Proofs.NfaCompile
import Verif.Proofs.Combine
import Verif.Proofs.DfaBuild
import Verif.Proofs.MergeOk

/-! Sizes of the automata. -/

namespace Verif
open Spec

namespace Nfa

theorem compileMatches_size (f : Nat) : ∀ (ms : List Match) (n : Nfa),
    (compileMatches f ms n).1.states.length = n.states.length + ms.length ∧
    (compileMatches f ms n).1.edges.length = n.edges.length + ms.length
  | [], _ => ⟨rfl, rfl⟩
  | m :: ms, n => by
    have h := compileMatches_size f ms (n.compileMatch m f).1
    simp only [compileMatches, List.length_cons]
    rw [h.1, h.2]
    simp only [compileMatch, length_pushEdge, length_pushState, edges_pushEdge, edges_pushState, List.length_append, List.length_cons, List.length_nil]
    omega

theorem pushEps_edges (i : Nat) : ∀ (ts : List Nat) (n : Nfa),
    (pushEps i ts n).edges.length = n.edges.length + ts.length
  | [], _ => rfl
  | t :: ts, n => by simp only [pushEps, pushEps_edges i ts, edges_pushEdge, List.length_append, List.length_cons, List.length_nil]; omega

theorem unwrapAll_length : ∀ (os : List (Option Nat)) (ts : List Nat), unwrapAll os = .ok ts → ts.length = os.length
  | [], ts, h => by cases h; rfl
  | none :: os, ts, h => by simp [unwrapAll, unwrapO, bind, Except.bind] at h
  | some v :: os, ts, h => by
    simp only [unwrapAll, unwrapO, bind, Except.bind] at h
    cases h1 : unwrapAll os with
    | error e => simp [h1] at h
    | ok ts' =>
      simp only [h1, pure, Except.pure, Except.ok.injEq] at h
      rw [← h, List.length_cons, List.length_cons, unwrapAll_length os ts' h1]

theorem rep_size {k : RepKind} {h : Hir} {n n' : Nfa} {a : Nat} {r : Option Nat} (hk : k ≠ .range)
    (ih : ∀ n a n' r, compile h n a = .ok (n', r) →
      n'.states.length ≤ n.states.length + 2 * size h ∧ n'.edges.length + 1 ≤ n.edges.length + 4 * size h)
    (hc : compile (.rep k h) n a = .ok (n', r)) :
    n'.states.length ≤ n.states.length + 2 * (1 + size h) ∧
      n'.edges.length + 1 ≤ n.edges.length + 4 * (1 + size h) := by
  cases h1 : compile h n.pushState n.states.length with
  | error e => cases k <;> simp [compile, h1, bind, Except.bind] at hc hk
  | ok p =>
    have ih := ih _ _ _ _ (show compile h n.pushState n.states.length = .ok (p.1, p.2) from h1)
    simp only [length_pushState, edges_pushState] at ih
    cases h2 : unwrapO p.2 with
    | error e => cases k <;> simp [compile, h1, h2, bind, Except.bind] at hc hk
    | ok s =>
      cases k <;> simp [compile, h1, h2, bind, Except.bind, pure, Except.pure] at hc hk <;>
        (rw [← hc.1]; simp only [length_pushEdge, length_pushState, edges_pushEdge, edges_pushState, List.length_append, List.length_cons, List.length_nil]; omega)

mutual
theorem compile_size : ∀ (h : Hir) (n : Nfa) (a : Nat) (n' : Nfa) (r : Option Nat),
    compile h n a = .ok (n', r) →
    n'.states.length ≤ n.states.length + 2 * size h ∧ n'.edges.length + 1 ≤ n.edges.length + 4 * size h
  | .empty, n, a, n', r, h => by simp only [compile, Except.ok.injEq, Prod.mk.injEq] at h; simp [← h.1, size]
  | .lit c, n, a, n', r, h => by
    simp only [compile, compileMatch, Except.ok.injEq, Prod.mk.injEq] at h
    rw [← h.1]; simp [size]
  | .cls rs, n, a, n', r, h => by
    simp only [compile, Except.ok.injEq, Prod.mk.injEq] at h
    rw [← h.1, pushEps_length, pushEps_edges, (compileMatches_size _ _ _).1, (compileMatches_size _ _ _).2,
      compileMatches_length]
    simp only [length_pushState, length_pushEdge, edges_pushEdge, edges_pushState, List.length_append, List.length_cons, List.length_nil, List.length_map, size]
    omega
  | .anchor, _, _, _, _, h => by simp [compile] at h
  | .wordBoundary, _, _, _, _, h => by simp [compile] at h
  | .rep .range _, _, _, _, _, h => by simp [compile] at h
  | .rep .zeroOrOne h, n, a, n', r, hc => by
    rw [size]; exact rep_size (by simp) (compile_size h) hc
  | .rep .zeroOrMore h, n, a, n', r, hc => by
    rw [size]; exact rep_size (by simp) (compile_size h) hc
  | .rep .oneOrMore h, n, a, n', r, hc => by
    rw [size]; exact rep_size (by simp) (compile_size h) hc
  | .group h, n, a, n', r, hc => by
    simp only [compile] at hc
    have := compile_size h _ _ _ _ hc
    rw [size]; omega
  | .concat hs, n, a, n', r, hc => by
    simp only [compile] at hc
    cases h1 : compileConcat hs n a with
    | error e => simp [h1, bind, Except.bind] at hc
    | ok p =>
      simp [h1, bind, Except.bind, pure, Except.pure] at hc
      have ih := compileConcat_size hs n a p.1 p.2 h1
      rw [← hc.1, size]; omega
  | .alt hs, n, a, n', r, hc => by
    simp only [compile] at hc
    cases h1 : compileAlts hs (n.pushState.pushEdge n.states.length none a).pushState n.states.length with
    | error e => simp [h1, bind, Except.bind] at hc
    | ok p =>
      have ih := compileAlts_size hs _ _ p.1 p.2 h1
      cases h2 : unwrapAll p.2 with
      | error e => simp [h1, h2, bind, Except.bind] at hc
      | ok s =>
        simp [h1, h2, bind, Except.bind, pure, Except.pure] at hc
        rw [← hc.1, pushEps_length, pushEps_edges, unwrapAll_length _ _ h2, size]
        simp only [length_pushState, length_pushEdge, edges_pushEdge, edges_pushState, List.length_append, List.length_cons, List.length_nil] at ih
        omega
theorem compileConcat_size : ∀ (hs : List Hir) (n : Nfa) (a : Nat) (n' : Nfa) (i : Nat),
    compileConcat hs n a = .ok (n', i) →
    n'.states.length ≤ n.states.length + 2 * sizes hs ∧ n'.edges.length ≤ n.edges.length + 4 * sizes hs
  | [], n, a, n', i, hc => by
    simp only [compileConcat, Except.ok.injEq, Prod.mk.injEq] at hc; simp [← hc.1]
  | h :: hs, n, a, n', i, hc => by
    simp only [compileConcat] at hc
    cases h1 : compileConcat hs n a with
    | error e => simp [h1, bind, Except.bind] at hc
    | ok p =>
      have ih := compileConcat_size hs n a p.1 p.2 h1
      simp [h1, bind, Except.bind] at hc
      cases h2 : compile h p.1 p.2 with
      | error e => simp [h2] at hc
      | ok q =>
        have ih2 := compile_size h p.1 p.2 q.1 q.2 h2
        cases h3 : unwrapO q.2 with
        | error e => simp [h2, h3] at hc
        | ok s =>
          simp [h2, h3, pure, Except.pure] at hc
          rw [← hc.1, sizes]; omega
theorem compileAlts_size : ∀ (hs : List Hir) (n : Nfa) (f : Nat) (n' : Nfa) (os : List (Option Nat)),
    compileAlts hs n f = .ok (n', os) →
    n'.states.length ≤ n.states.length + 2 * sizes hs ∧ n'.edges.length + os.length ≤ n.edges.length + 4 * sizes hs
  | [], n, a, n', i, hc => by
    simp only [compileAlts, Except.ok.injEq, Prod.mk.injEq] at hc; simp [← hc.1, ← hc.2]
  | h :: hs, n, f, n', os, hc => by
    simp only [compileAlts] at hc
    cases h1 : compile h n f with
    | error e => simp [h1, bind, Except.bind] at hc
    | ok p =>
      have ih := compile_size h n f p.1 p.2 h1
      simp [h1, bind, Except.bind] at hc
      cases h2 : compileAlts hs p.1 f with
      | error e => simp [h2] at hc
      | ok q =>
        have ih2 := compileAlts_size hs p.1 f q.1 q.2 h2
        simp [h2, pure, Except.pure] at hc
        rw [← hc.1, ← hc.2, sizes, List.length_cons]; omega
end

theorem fromRegex_size {h : Hir} {n : Nfa} (hn : fromRegex h = .ok n) :
    n.states.length ≤ 2 * size h + 2 ∧ n.edges.length ≤ 4 * size h := by
  simp only [fromRegex] at hn
  cases h1 : compile h init FINAL with
  | error e => simp [h1, bind, Except.bind] at hn
  | ok p =>
    simp only [h1, bind, Except.bind, pure, Except.pure, Except.ok.injEq] at hn
    have := compile_size h init FINAL p.1 p.2 h1
    rw [← hn, length_pushEdge, edges_pushEdge]
    simp only [List.length_append, init, List.length_cons, List.length_nil] at this ⊢
    omega

end Nfa

namespace Lex

theorem length_compStates_sum : ∀ (ns : List (TokenDef × Nfa)) (eo : Nat),
    (compStates eo ns).length = (ns.map fun p => p.2.states.length).sum
  | [], _ => rfl
  | (t, n) :: ns, eo => by simp [compStates, Nfa.shift, length_compStates_sum ns]

theorem length_compEdges : ∀ (ns : List (TokenDef × Nfa)) (so : Nat),
    (compEdges (comps so ns)).length = (ns.map fun p => p.2.edges.length).sum
  | [], _ => rfl
  | (t, n) :: ns, so => by
    have := length_compEdges ns (so + n.states.length)
    simp only [compEdges, comps, List.flatMap_cons, List.length_append, List.length_map, List.map_cons, List.sum_cons] at *
    omega

theorem combine_size (ns : List (TokenDef × Nfa)) :
    (combine ns).1.states.length = 1 + (ns.map fun p => p.2.states.length).sum ∧
    (combine ns).1.edges.length = ns.length + (ns.map fun p => p.2.edges.length).sum := by
  rw [combine_nfa]
  simp only [List.length_append, List.length_map, List.length_cons, length_comps, length_compStates_sum,
    length_compEdges]
  exact ⟨Nat.add_comm _ _, trivial⟩

theorem buildNfas_size : ∀ (toks : List (TokenDef × Hir)) (ns : List (TokenDef × Nfa)), buildNfas toks = .ok ns →
    ns.length = toks.length ∧
    (ns.map fun p => p.2.states.length).sum ≤ 2 * sizes (toks.map Prod.snd) + 2 * toks.length ∧
    (ns.map fun p => p.2.edges.length).sum ≤ 4 * sizes (toks.map Prod.snd) := by
  intro toks ns h
  replace h := buildNfas_spec toks ns h
  induction h with
  | nil => simp [sizes]
  | cons h1 _ ih =>
    have := Nfa.fromRegex_size h1.2
    simp only [List.map_cons, List.sum_cons, List.length_cons, sizes] at *
    omega

end Lex

theorem length_le_of_filter {α : Type} (f : α → Nat) (k : Nat) : ∀ (N : Nat) (l : List α), (∀ a ∈ l, f a < N) →
    (∀ t < N, (l.filter fun a => f a == t).length ≤ k) → l.length ≤ N * k
  | 0, l, h, _ => by
    cases l with
    | nil => simp
    | cons a l => exact absurd (h a (by simp)) (by omega)
  | N + 1, l, h, hk => by
    have h1 := length_le_of_filter f k N (l.filter fun a => !(f a == N)) (by
      intro a ha
      have h1 := h a (List.mem_filter.mp ha).1
      have h2 := (List.mem_filter.mp ha).2
      simp only [Bool.not_eq_true', beq_eq_false_iff_ne, ne_eq] at h2
      omega) (by
      intro t ht
      refine le_trans ?_ (hk t (by omega))
      rw [List.filter_filter]
      exact (List.monotone_filter_right l (by intro a; simp; intro h _; exact h)).length_le)
    have h2 := hk N (by omega)
    have h3 := List.length_eq_length_filter_add (l := l) (fun a => f a == N)
    rw [Nat.add_mul]; omega

theorem length_le_sublists {α : Type} [DecidableEq α] {l : List (List α)} (hn : l.Nodup) {base : List α}
    (f : List α → List α) (hf : ∀ u ∈ l, f u ∈ base.sublists) (hi : ∀ u ∈ l, ∀ v ∈ l, f u = f v → u = v) :
    l.length ≤ 2 ^ base.length := by
  have hn' : (l.map f).Nodup := (List.nodup_map_iff_inj_on hn).mpr hi
  have hsub : ∀ u ∈ l.map f, u ∈ base.sublists := by
    intro u hu
    obtain ⟨s, hs, rfl⟩ := List.mem_map.mp hu
    exact hf s hs
  have := (hn'.subperm hsub).length_le
  rwa [List.length_sublists, List.length_map] at this

namespace ItemSet
open Grammar

/-- All pairs of a production and a dot. -/
def allDots (g : Grammar) : List Item :=
  (List.range g.prods.length).flatMap fun q => (List.range ((g.prodAt q).inputs.length + 1)).map fun d => (q, d)

theorem allDots_length (g : Grammar) : (allDots g).length = (g.prods.map fun p => p.inputs.length + 1).sum := by
  unfold allDots
  rw [List.length_flatMap]
  simp only [List.length_map, List.length_range]
  congr 1
  apply List.ext_getElem
  · simp
  · intro i h1 h2
    simp only [List.getElem_map, List.getElem_range]
    have : i < g.prods.length := by simpa using h1
    simp [prodAt, List.getD, List.getElem?_eq_getElem this]

theorem mem_allDots {g : Grammar} {it : Item} {p : Production} (hp : g.prods[it.1]? = some p) (hd : it.2 ≤ p.inputs.length) :
    it ∈ allDots g := by
  have hi := (List.getElem?_eq_some_iff.mp hp).1
  simp only [allDots, List.mem_flatMap, List.mem_range, List.mem_map]
  refine ⟨it.1, hi, it.2, ?_, rfl⟩
  simp only [prodAt, List.getD, hp, Option.getD_some]
  omega

theorem cores_bound {g : Grammar} {l : List (List Item)} (hn : l.Nodup) (hs : ∀ u ∈ l, Sorted u)
    (hr : ∀ u ∈ l, ∀ it ∈ u, it ∈ allDots g) : l.length ≤ 2 ^ (allDots g).length := by
  refine length_le_sublists hn (fun u => (allDots g).filter fun it => decide (it ∈ u)) (fun u _ => ?_) fun u hu v hv h => ?_
  · rw [List.mem_sublists]; exact List.filter_sublist
  · have key : ∀ w ∈ l, ∀ it, it ∈ w ↔ it ∈ (allDots g).filter fun it => decide (it ∈ w) := by
      intro w hw it
      simp only [List.mem_filter, decide_eq_true_eq]
      exact ⟨fun h => ⟨hr w hw it h, h⟩, fun h => h.2⟩
    refine sorted_ext (hs u hu) (hs v hv) fun it => ?_
    rw [key u hu, key v hv, h]

end ItemSet

theorem Spec.firsts_length_le {α : Type} [DecidableEq α] (l : List α) : (firsts l).length ≤ l.length :=
  ((nodup_firsts l).subperm fun _ h => mem_firsts.mp h).length_le

end Verif
