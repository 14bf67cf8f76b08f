import Verif.Proofs.DfaEps
import Mathlib.Data.List.Sublists
import Mathlib.Data.List.Forall2

/-! Subset construction. -/

namespace Verif
open Spec

namespace Dfa

/-- The edges of DFA state `t`, given its set of NFA states `u` and the list `D`
of all sets. -/
def IsBlock (tr : List Nat → Match → List Nat) (D : List (List Nat)) (t : Nat) (u : List Nat)
    (labels : List Match) (es : List DEdge) : Prop :=
  List.Forall₂ (fun l (e : DEdge) => e.src = t ∧ e.label = l ∧ D[e.dst]? = some (tr u l))
    (labels.filter fun l => !(tr u l).isEmpty) es

theorem IsBlock.mono {tr D D' t u labels es} (h : IsBlock tr D t u labels es) :
    IsBlock tr (D ++ D') t u labels es := by
  unfold IsBlock at *
  refine h.imp ?_
  rintro l e ⟨h1, h2, h3⟩
  refine ⟨h1, h2, ?_⟩
  have := (List.getElem?_eq_some_iff.mp h3).1
  rw [List.getElem?_append_left this]; exact h3

theorem IsBlock.src {tr D t u labels es} (h : IsBlock tr D t u labels es) :
    ∀ e ∈ es, e.src = t := by
  unfold IsBlock at h
  generalize labels.filter (fun l => !(tr u l).isEmpty) = ls at h
  induction h with
  | nil => simp
  | cons h1 _ ih =>
    intro e he
    rcases List.mem_cons.mp he with rfl | he
    · exact h1.1
    · exact ih e he

/-- Invariant between iterations of the outer loop, `k` states done. -/
structure BInv (tr : List Nat → Match → List Nat) (alphabet : List Match) (P : List Nat → Prop)
    (s0 : List Nat) (k : Nat) (b : BState) (blocks : List (List DEdge)) : Prop where
  klen : k ≤ b.dStates.length
  marks : b.marks = List.replicate k true ++ List.replicate (b.dStates.length - k) false
  nodup : b.dStates.Nodup
  zero : b.dStates[0]? = some s0
  all : ∀ u ∈ b.dStates, P u
  pos : ∀ i u, 0 < i → b.dStates[i]? = some u → u ≠ []
  blen : blocks.length = k
  edges : b.edges = blocks.flatten
  firstLen : b.firstEdges.length = k
  first : ∀ t < k, b.firstEdges[t]? =
    some (if blocks.getD t [] = [] then none else some (blocks.take t).flatten.length)
  block : ∀ t < k, IsBlock tr b.dStates t (b.dStates.getD t []) alphabet (blocks.getD t [])
  msorted : MSorted b.dfaToNfa
  map : ∀ i, mget i b.dfaToNfa = if i = 0 then none else b.dStates[i]?

/-- Invariant inside the loop over labels for state `k`. -/
structure LInv (tr : List Nat → Match → List Nat) (alphabet : List Match) (P : List Nat → Prop)
    (s0 : List Nat) (k : Nat) (b : BState) (blocks : List (List DEdge))
    (done : List Match) (cur : List DEdge) : Prop where
  klen : k < b.dStates.length
  marks : b.marks = List.replicate (k + 1) true ++ List.replicate (b.dStates.length - (k + 1)) false
  nodup : b.dStates.Nodup
  zero : b.dStates[0]? = some s0
  all : ∀ u ∈ b.dStates, P u
  pos : ∀ i u, 0 < i → b.dStates[i]? = some u → u ≠ []
  blen : blocks.length = k
  edges : b.edges = blocks.flatten ++ cur
  firstLen : b.firstEdges.length = k + 1
  first : ∀ t < k, b.firstEdges[t]? =
    some (if blocks.getD t [] = [] then none else some (blocks.take t).flatten.length)
  firstK : b.firstEdges[k]? = some (if cur = [] then none else some blocks.flatten.length)
  block : ∀ t < k, IsBlock tr b.dStates t (b.dStates.getD t []) alphabet (blocks.getD t [])
  blockK : IsBlock tr b.dStates k (b.dStates.getD k []) done cur
  msorted : MSorted b.dfaToNfa
  map : ∀ i, mget i b.dfaToNfa = if i = 0 then none else b.dStates[i]?

theorem findIdx_marks (k m : Nat) :
    (List.replicate k true ++ List.replicate m false).findIdx? (fun b => !b) =
      if m = 0 then none else some k := by
  induction k with
  | zero =>
    cases m with
    | zero => rfl
    | succ m => simp [List.replicate_succ, List.findIdx?_cons]
  | succ k ih =>
    rw [List.replicate_succ, List.cons_append, List.findIdx?_cons, ih]
    simp only [Bool.not_true]
    by_cases hm : m = 0 <;> simp [hm]

theorem getD_append_left' {α} {l l' : List α} {i : Nat} {d : α} (h : i < l.length) :
    (l ++ l').getD i d = l.getD i d := by
  simp [List.getD, List.getElem?_append_left h]

theorem IsBlock.snoc {tr D t u done cur} {l : Match} {idx : Nat}
    (h : IsBlock tr D t u done cur) (hne : (tr u l).isEmpty = false) (hi : D[idx]? = some (tr u l)) :
    IsBlock tr D t u (done ++ [l]) (cur ++ [⟨t, l, idx⟩]) := by
  unfold IsBlock at *
  rw [List.filter_append]
  refine List.rel_append h ?_
  simp only [List.filter_cons, hne, Bool.not_false, if_true, List.filter_nil]
  exact .cons ⟨rfl, rfl, hi⟩ .nil

theorem IsBlock.snoc_empty {tr D t u done cur} {l : Match}
    (h : IsBlock tr D t u done cur) (hne : (tr u l).isEmpty = true) :
    IsBlock tr D t u (done ++ [l]) cur := by
  unfold IsBlock at *
  rw [List.filter_append]
  simpa [List.filter_cons, hne] using h

theorem buildLabel_inv {n : Nfa} {tr alphabet P s0 k b blocks done cur} {l : Match}
    (htr : ∀ u l, epsClosure n (moveSet n u l) = .ok (tr u l))
    (hP : ∀ u l, l ∈ alphabet → P u → tr u l ≠ [] → P (tr u l)) (hl : l ∈ alphabet)
    (h : LInv tr alphabet P s0 k b blocks done cur) :
    ∃ b' cur', buildLabel n k b l = .ok b' ∧
      LInv tr alphabet P s0 k b' blocks (done ++ [l]) cur' := by
  have hu : b.dStates.getD k [] ∈ b.dStates := by
    simp only [List.getD, List.getElem?_eq_getElem h.klen, Option.getD_some]
    exact List.getElem_mem _
  have hPu := h.all _ hu
  unfold buildLabel
  rw [htr]
  simp only [bind, Except.bind]
  by_cases he : (tr (b.dStates.getD k []) l).isEmpty = true
  · rw [if_pos he]
    exact ⟨b, cur, rfl, { h with blockK := h.blockK.snoc_empty he }⟩
  · have he' : (tr (b.dStates.getD k []) l).isEmpty = false := by simpa using he
    have hne : tr (b.dStates.getD k []) l ≠ [] := by simpa using he
    rw [if_neg he]
    simp only [pure, Except.pure]
    -- common update of edges and first edges
    have hmod : ∀ (g : Option Nat → Option Nat), g none = some b.edges.length →
        (∀ i, g (some i) = some i) → ∀ v, (b.firstEdges.modify k g)[v]? =
        if v = k then some (some blocks.flatten.length) else b.firstEdges[v]? := by
      intro g hg1 hg2 v
      rw [List.getElem?_modify]
      by_cases hv : v = k
      · subst hv
        rw [h.firstK]
        by_cases hc : cur = []
        · simp [hc, hg1, h.edges]
        · simp [hc, hg2]
      · have : k ≠ v := fun hh => hv hh.symm
        simp [hv, this]
    cases hf : b.dStates.findIdx? (fun s => decide (s = tr (b.dStates.getD k []) l)) with
    | some i =>
      have hi := List.findIdx?_eq_some_iff_getElem.mp hf
      obtain ⟨hlt, hi, _⟩ := hi
      have hi' : b.dStates[i]? = some (tr (b.dStates.getD k []) l) := by
        rw [List.getElem?_eq_getElem hlt]; simpa using hi
      refine ⟨_, cur ++ [⟨k, l, i⟩], rfl, ?_⟩
      refine { h with edges := ?_, firstLen := ?_, first := ?_, firstK := ?_, blockK := ?_ }
      · simp [h.edges]
      · simpa using h.firstLen
      · intro t ht
        simp only
        refine (hmod _ rfl (fun _ => rfl) t).trans ?_
        rw [if_neg (by omega)]
        exact h.first t ht
      · simp only
        refine (hmod _ rfl (fun _ => rfl) k).trans ?_
        simp
      · exact h.blockK.snoc he' hi'
    | none =>
      have hni : tr (b.dStates.getD k []) l ∉ b.dStates := by
        intro hm
        have := List.findIdx?_eq_none_iff.mp hf _ hm
        simp at this
      refine ⟨_, cur ++ [⟨k, l, b.dStates.length⟩], rfl, ?_⟩
      have hkl := h.klen
      refine ⟨?_, ?_, ?_, ?_, ?_, ?_, h.blen, ?_, ?_, ?_, ?_, ?_, ?_, ?_, ?_⟩
      · simp only [List.length_append, List.length_singleton]; omega
      · simp only [List.length_append, List.length_singleton]
        rw [h.marks, List.append_assoc]
        congr 1
        rw [show b.dStates.length + 1 - (k + 1) = b.dStates.length - (k + 1) + 1 from by omega,
          List.replicate_succ']
      · exact List.nodup_append.mpr ⟨h.nodup, by simp, by
          intro a ha b' hb'
          simp only [List.mem_singleton] at hb'; subst hb'
          rintro rfl; exact hni ha⟩
      · rw [List.getElem?_append_left (by omega)]; exact h.zero
      · intro u hu
        rcases List.mem_append.mp hu with hu | hu
        · exact h.all u hu
        · simp only [List.mem_singleton] at hu; subst hu; exact hP _ _ hl hPu hne
      · intro i u hi hiu
        by_cases hlt : i < b.dStates.length
        · rw [List.getElem?_append_left hlt] at hiu
          exact h.pos i u hi hiu
        · rw [List.getElem?_append_right (by omega)] at hiu
          have : u ∈ [tr (b.dStates.getD k []) l] := List.mem_of_getElem? hiu
          simp only [List.mem_singleton] at this; subst this; exact hne
      · simp [h.edges]
      · simpa using h.firstLen
      · intro t ht
        simp only
        refine (hmod _ rfl (fun _ => rfl) t).trans ?_
        rw [if_neg (by omega)]
        exact h.first t ht
      · simp only
        refine (hmod _ rfl (fun _ => rfl) k).trans ?_
        simp
      · intro t ht
        simp only
        rw [getD_append_left' (by omega)]
        exact (h.block t ht).mono
      · simp only
        rw [getD_append_left' hkl]
        refine h.blockK.mono.snoc he' ?_
        rw [List.getElem?_append_right (Nat.le_refl _)]; simp
      · exact msorted_minsert h.msorted
      · intro i
        simp only
        rw [mget_minsert]
        by_cases hi : i = b.dStates.length
        · subst hi
          rw [if_pos rfl, if_neg (by omega), List.getElem?_append_right (Nat.le_refl _)]; simp
        · rw [if_neg hi, h.map i]
          by_cases h0 : i = 0
          · simp [h0]
          · simp only [h0, if_false]
            rw [List.getElem?_append]
            split
            · rfl
            · rw [List.getElem?_eq_none (by omega), List.getElem?_eq_none (by simp; omega)]

theorem buildLabels_inv {n : Nfa} {tr alphabet P s0 k blocks}
    (htr : ∀ u l, epsClosure n (moveSet n u l) = .ok (tr u l))
    (hP : ∀ u l, l ∈ alphabet → P u → tr u l ≠ [] → P (tr u l)) : ∀ (ls : List Match) (b : BState) done cur,
    (∀ l ∈ ls, l ∈ alphabet) →
    LInv tr alphabet P s0 k b blocks done cur →
    ∃ b' cur', buildLabels n k ls b = .ok b' ∧
      LInv tr alphabet P s0 k b' blocks (done ++ ls) cur'
  | [], b, done, cur, _, h => ⟨b, cur, rfl, by simpa using h⟩
  | l :: ls, b, done, cur, hls, h => by
    obtain ⟨b1, cur1, h1, h2⟩ := buildLabel_inv htr hP (hls l (by simp)) h
    obtain ⟨b2, cur2, h3, h4⟩ := buildLabels_inv htr hP ls b1 _ _ (fun x hx => hls x (by simp [hx])) h2
    refine ⟨b2, cur2, ?_, by simpa using h4⟩
    simp [buildLabels, h1, h3, bind, Except.bind]

theorem buildLoop_inv {n : Nfa} {tr alphabet P s0} {N : Nat}
    (htr : ∀ u l, epsClosure n (moveSet n u l) = .ok (tr u l))
    (hP : ∀ u l, l ∈ alphabet → P u → tr u l ≠ [] → P (tr u l))
    (hN : ∀ D : List (List Nat), D.Nodup → (∀ u ∈ D, P u) → D.length ≤ N) :
    ∀ (fuel k : Nat) (b : BState) blocks, N ≤ fuel + k → BInv tr alphabet P s0 k b blocks →
    ∃ b' blocks', buildLoop n alphabet fuel b = .ok b' ∧
      BInv tr alphabet P s0 b'.dStates.length b' blocks' := by
  intro fuel
  induction fuel with
  | zero =>
    intro k b blocks hk h
    have := hN _ h.nodup h.all
    have hkl := h.klen
    have hke : b.dStates.length = k := by omega
    refine ⟨b, blocks, ?_, by rw [hke]; exact h⟩
    unfold buildLoop
    rw [h.marks, findIdx_marks, if_pos (by omega)]
  | succ fuel ih =>
    intro k b blocks hk h
    by_cases hke : b.dStates.length = k
    · refine ⟨b, blocks, ?_, by rw [hke]; exact h⟩
      unfold buildLoop
      rw [h.marks, findIdx_marks, if_pos (by omega)]
    · have hkl := h.klen
      have hstep : LInv tr alphabet P s0 k { b with marks := b.marks.set k true, firstEdges := b.firstEdges ++ [none] }
          blocks [] [] := by
        refine ⟨?_, ?_, h.nodup, h.zero, h.all, h.pos, h.blen, ?_, ?_, ?_, ?_, h.block, ?_, h.msorted, h.map⟩
        · simp only; omega
        · simp only
          rw [h.marks, show b.dStates.length - k = (b.dStates.length - (k + 1)) + 1 from by omega,
            List.replicate_succ, List.set_append_right _ _ (by simp), List.replicate_succ']
          simp
        · simp [h.edges]
        · simp [h.firstLen]
        · intro t ht
          simp only
          rw [List.getElem?_append_left (by rw [h.firstLen]; exact ht)]
          exact h.first t ht
        · simp only
          rw [List.getElem?_append_right (by rw [h.firstLen])]; simp [h.firstLen]
        · exact .nil
      obtain ⟨b1, cur, h1, h2⟩ := buildLabels_inv htr hP alphabet _ [] [] (fun l hl => hl) hstep
      simp only [List.nil_append] at h2
      have hnext : BInv tr alphabet P s0 (k + 1) b1 (blocks ++ [cur]) := by
        have hbl := h2.blen
        refine ⟨h2.klen, h2.marks, h2.nodup, h2.zero, h2.all, h2.pos, by simp [hbl], ?_, h2.firstLen, ?_, ?_, h2.msorted, h2.map⟩
        · simp [h2.edges]
        · intro t ht
          by_cases htk : t < k
          · rw [h2.first t htk, getD_append_left' (by omega), List.take_append_of_le_length (by omega)]
          · have : t = k := by omega
            subst this
            rw [h2.firstK]
            simp [List.getD, ← hbl]
        · intro t ht
          by_cases htk : t < k
          · rw [getD_append_left' (by omega)]; exact h2.block t htk
          · have : t = k := by omega
            subst this
            have : (blocks ++ [cur]).getD t [] = cur := by simp [List.getD, ← hbl]
            rw [this]; exact h2.blockK
      obtain ⟨b2, blocks2, h3, h4⟩ := ih (k + 1) b1 _ (by omega) hnext
      refine ⟨b2, blocks2, ?_, h4⟩
      unfold buildLoop
      rw [h.marks, findIdx_marks, if_neg (by omega)]
      simp only [h.marks] at h1
      simp only [h1, bind, Except.bind, h3]

/-- What the subset construction produces. -/
structure Spec (n : Nfa) (s0 : List Nat) (alphabet : List Match) (tr : List Nat → Match → List Nat)
    (P : List Nat → Prop) (d : Dfa) (D : List (List Nat)) : Prop where
  len : d.states.length = D.length
  nodup : D.Nodup
  zero : D[0]? = some s0
  all : ∀ u ∈ D, P u
  pos : ∀ i u, 0 < i → D[i]? = some u → u ≠ []
  iter : ∀ t u, D[t]? = some u → IsBlock tr D t u alphabet (d.edgeIter t)
  filter : ∀ t, d.edgeIter t = d.edges.filter fun e => e.src == t
  hasFirst : ∀ t, d.edgeIter t = [] ↔ d.states[t]?.bind id = none
  msorted : MSorted d.dfaToNfa
  map : ∀ i, mget i d.dfaToNfa = if i = 0 then none else D[i]?
  accepting : d.accepting = n.acceptingStates
  bound : ∀ e ∈ d.edges, e.src < D.length ∧ e.dst < D.length

theorem flatten_split {α} : ∀ (L : List (List α)) (t : Nat), t < L.length →
    L.flatten = (L.take t).flatten ++ L.getD t [] ++ (L.drop (t + 1)).flatten
  | [], t, h => by simp at h
  | a :: L, 0, _ => by simp
  | a :: L, t + 1, h => by
    have := flatten_split L t (by simpa using h)
    simp only [List.flatten_cons, List.take_succ_cons, List.drop_succ_cons]
    rw [this]; simp

theorem sets_bound (N : Nat) (D : List (List Nat)) (hn : D.Nodup)
    (hP : ∀ u ∈ D, Sorted u ∧ ∀ x ∈ u, x < N) : D.length ≤ 2 ^ N := by
  have hsub : ∀ u ∈ D, u ∈ (List.range N).sublists := by
    intro u hu
    rw [List.mem_sublists]
    obtain ⟨hs, hlt⟩ := hP u hu
    have hr : Sorted (List.range N) :=
      (List.pairwise_lt_range (n := N)).imp (by intro a b hab; simpa [blt, BOrd.blt] using hab)
    have : u = (List.range N).filter fun x => decide (x ∈ u) := by
      refine sorted_ext hs (hr.filter _) ?_
      intro x
      simp only [List.mem_filter, List.mem_range, decide_eq_true_eq]
      exact ⟨fun h => ⟨hlt x h, h⟩, fun h => h.2⟩
    rw [this]; exact List.filter_sublist
  have := (hn.subperm hsub).length_le
  simpa [List.length_sublists] using this

theorem build_spec {n : Nfa} {ord : Nfa.Order} {alphabet : List Match} {tr s0}
    (htr : ∀ u l, epsClosure n (moveSet n u l) = .ok (tr u l))
    {P : List Nat → Prop} (hP : ∀ u l, l ∈ alphabet → P u → tr u l ≠ [] → P (tr u l))
    (hPb : ∀ u, P u → Sorted u ∧ ∀ x ∈ u, x < n.states.length)
    {r : List Nat} (hr : n.epsClosure ord 0 [Nfa.START] = .ok r) (hs0 : ofList (ord 1 r) = s0)
    (hP0 : P s0) : ∃ d D, build n ord alphabet = .ok d ∧ Spec n s0 alphabet tr P d D := by
  have h0 : BInv tr alphabet P s0 0
      { edges := [], firstEdges := [], marks := [false], dStates := [s0], dfaToNfa := [] } [] := by
    refine ⟨by simp, by simp, by simp, by simp, by simpa using hP0, ?_, rfl, rfl, rfl, by simp, by simp, List.Pairwise.nil, ?_⟩
    · intro i u hi h
      cases i with
      | zero => omega
      | succ i => simp at h
    · intro i
      cases i <;> simp [mget]
  obtain ⟨b, blocks, h1, h2⟩ := buildLoop_inv htr hP
    (fun D hn hall => sets_bound n.states.length D hn fun u hu => hPb u (hall u hu))
    (2 ^ n.states.length) 0 _ _ (by omega) h0
  have hbl := h2.blen
  have hblock : ∀ t < b.dStates.length, blocks.getD t [] ∈ blocks := by
    intro t ht
    simp only [List.getD, List.getElem?_eq_getElem (show t < blocks.length by omega), Option.getD_some]
    exact List.getElem_mem _
  refine ⟨{ edges := b.edges
            states := (List.range b.dStates.length).map fun i => b.firstEdges.getD i none
            dfaToNfa := b.dfaToNfa
            accepting := n.acceptingStates }, b.dStates, ?_, ?_⟩
  · simp only [build, hr, hs0, bind, Except.bind, h1, pure, Except.pure]
  have hst : ∀ t, ((List.range b.dStates.length).map fun i => b.firstEdges.getD i none)[t]?.bind id =
      if t < b.dStates.length then
        (if blocks.getD t [] = [] then none else some (blocks.take t).flatten.length) else none := by
    intro t
    by_cases ht : t < b.dStates.length
    · rw [if_pos ht, List.getElem?_eq_getElem (by simpa using ht)]
      simp only [List.getElem_map, List.getElem_range, Option.bind_some, id]
      rw [List.getD, h2.first t ht]; rfl
    · rw [if_neg ht, List.getElem?_eq_none (by simpa using ht)]; rfl
  have hiter : ∀ t, t < b.dStates.length → edgeIter
      { edges := b.edges
        states := (List.range b.dStates.length).map fun i => b.firstEdges.getD i none
        dfaToNfa := b.dfaToNfa
        accepting := n.acceptingStates } t = blocks.getD t [] := by
    intro t ht
    unfold edgeIter
    simp only
    rw [hst t, if_pos ht]
    by_cases hb : blocks.getD t [] = []
    · rw [if_pos hb, hb]
    · rw [if_neg hb]
      simp only
      have hsp := flatten_split blocks t (by omega)
      rw [h2.edges, hsp, List.append_assoc, List.drop_left,
        List.takeWhile_append_of_pos (by
          intro e he
          simpa using (h2.block t ht).src e he)]
      have : ((blocks.drop (t + 1)).flatten).takeWhile (fun e => e.src == t) = [] := by
        cases hC : (blocks.drop (t + 1)).flatten with
        | nil => rfl
        | cons e C =>
          have he : e ∈ (blocks.drop (t + 1)).flatten := by rw [hC]; simp
          obtain ⟨bl, hbl', hebl⟩ := List.mem_flatten.mp he
          obtain ⟨i, hi, hbi⟩ := List.mem_iff_getElem.mp hbl'
          rw [List.getElem_drop] at hbi
          simp only [List.length_drop] at hi
          have h3 := (h2.block (t + 1 + i) (by omega)).src e (by
            simp only [List.getD, List.getElem?_eq_getElem (show t + 1 + i < blocks.length by omega), Option.getD_some]
            rw [hbi]; exact hebl)
          have : (e.src == t) = false := by
            rw [beq_eq_false_iff_ne, h3]; omega
          simp [this]
      rw [this]; simp
  refine ⟨by simp, h2.nodup, h2.zero, h2.all, h2.pos, ?_, ?_, ?_, h2.msorted, h2.map, rfl, ?_⟩
  · intro t u hu
    have ht := (List.getElem?_eq_some_iff.mp hu).1
    rw [hiter t ht]
    have := h2.block t ht
    have hgu : b.dStates.getD t [] = u := by simp [List.getD, hu]
    rw [hgu] at this
    exact this
  · intro t
    have hsrc : ∀ i (hi : i < blocks.length), ∀ e ∈ blocks[i], e.src = i := by
      intro i hi e he
      refine (h2.block i (by omega)).src e ?_
      simpa [List.getD, List.getElem?_eq_getElem hi] using he
    by_cases ht : t < b.dStates.length
    · rw [hiter t ht]
      simp only
      have hsp := flatten_split blocks t (by omega)
      rw [h2.edges, hsp, List.filter_append, List.filter_append]
      have e1 : ((blocks.take t).flatten).filter (fun e => e.src == t) = [] := by
        rw [List.filter_eq_nil_iff]
        intro e he
        obtain ⟨bl, hbl', hebl⟩ := List.mem_flatten.mp he
        obtain ⟨i, hi, rfl⟩ := List.mem_iff_getElem.mp hbl'
        simp only [List.length_take] at hi
        rw [List.getElem_take] at hebl
        have := hsrc i (by omega) e hebl
        simp only [beq_iff_eq]; omega
      have e2 : ((blocks.drop (t + 1)).flatten).filter (fun e => e.src == t) = [] := by
        rw [List.filter_eq_nil_iff]
        intro e he
        obtain ⟨bl, hbl', hebl⟩ := List.mem_flatten.mp he
        obtain ⟨i, hi, rfl⟩ := List.mem_iff_getElem.mp hbl'
        simp only [List.length_drop] at hi
        rw [List.getElem_drop] at hebl
        have := hsrc (t + 1 + i) (by omega) e hebl
        simp only [beq_iff_eq]; omega
      rw [e1, e2]
      simp only [List.nil_append, List.append_nil]
      refine (List.filter_eq_self.mpr ?_).symm
      intro e he
      simpa using (h2.block t ht).src e he
    · have e0 : edgeIter { edges := b.edges
                           states := (List.range b.dStates.length).map fun i => b.firstEdges.getD i none
                           dfaToNfa := b.dfaToNfa
                           accepting := n.acceptingStates } t = [] := by
        unfold edgeIter
        simp only
        rw [hst t, if_neg ht]
      rw [e0]
      simp only
      refine (List.filter_eq_nil_iff.mpr ?_).symm
      intro e he
      rw [h2.edges] at he
      obtain ⟨bl, hbl', hebl⟩ := List.mem_flatten.mp he
      obtain ⟨i, hi, rfl⟩ := List.mem_iff_getElem.mp hbl'
      have := hsrc i hi e hebl
      simp only [beq_iff_eq]; omega
  · intro t
    simp only
    by_cases ht : t < b.dStates.length
    · rw [hiter t ht, hst t, if_pos ht]
      split <;> simp_all
    · rw [hst t, if_neg ht]
      simp only [iff_true]
      unfold edgeIter
      simp only
      rw [hst t, if_neg ht]
  · intro e he
    simp only at he
    rw [h2.edges] at he
    obtain ⟨bl, hbl', hebl⟩ := List.mem_flatten.mp he
    obtain ⟨i, hi, rfl⟩ := List.mem_iff_getElem.mp hbl'
    have hblk := h2.block i (by omega)
    simp only [List.getD, List.getElem?_eq_getElem hi, Option.getD_some] at hblk
    refine ⟨by rw [hblk.src e hebl]; omega, ?_⟩
    unfold IsBlock at hblk
    clear * - hblk hebl
    generalize blocks[i] = es at hblk hebl
    generalize List.filter _ alphabet = ls at hblk
    induction hblk with
    | nil => simp at hebl
    | cons h1 _ ih =>
      rcases List.mem_cons.mp hebl with rfl | h
      · exact (List.getElem?_eq_some_iff.mp h1.2.2).1
      · exact ih h

end Dfa
end Verif
