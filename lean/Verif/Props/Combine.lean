import Verif.Proofs.Combine
import Verif.Props.Regex

/-! # C03, C16: adjacency of the automata and combining token automata -/

namespace Verif.Props
open Verif Verif.Spec

/-- Every index stored in the automaton is in bounds, and walking the edge list
of a state yields exactly the edges leaving it, in order. -/
def AdjacencyOk (n : Nfa) : Prop :=
  (∀ e ∈ n.edges, e.src < n.states.length ∧ e.dst < n.states.length) ∧
  (∀ (s : Nat) (st : NState) (i : Nat), n.states[s]? = some st → st.first = some i → i < n.edges.length) ∧
  (∀ s, n.edgeIter s = n.edges.filter fun e => e.src == s)

theorem adjacencyOk_of {n : Nfa} (hw : n.WF)
    (hb : ∀ e ∈ n.edges, e.src < n.states.length ∧ e.dst < n.states.length) : AdjacencyOk n := by
  refine ⟨hb, ?_, fun s => Nfa.edgeIter_eq_filter (hw s)⟩
  intro s st i h1 h2
  have := hw s
  unfold Nfa.Adj at this
  rw [h1] at this
  simp only [Option.bind_some, h2] at this
  obtain ⟨A, B, C, h3, h4, h5, _⟩ := this
  have : 0 < B.length := List.length_pos_iff.mpr h5
  rw [h3]; simp only [List.length_append]; omega

/-- C03.  Automata built from a regex. -/
theorem C03_regex {h : Hir} {n : Nfa} (hn : Nfa.fromRegex h = .ok n) :
    AdjacencyOk n ∧ Nfa.START < n.states.length ∧ Nfa.FINAL < n.states.length := by
  have g := Nfa.fromRegex_good hn
  have := g.len
  exact ⟨adjacencyOk_of g.wf g.bound, by simp [Nfa.START]; omega, by simp [Nfa.FINAL]; omega⟩

/-- C03.  The combined automaton of any list of token regexes. -/
theorem C03_combined {toks : List (TokenDef × Hir)} {ns : List (TokenDef × Nfa)}
    (hb : Lex.buildNfas toks = .ok ns) :
    AdjacencyOk (Lex.combine ns).1 ∧ Nfa.START < (Lex.combine ns).1.states.length := by
  obtain ⟨acc, hc⟩ := Lex.combined hb
  exact ⟨adjacencyOk_of hc.wf hc.bound, hc.start⟩

/-- A token without value. -/
def tok (s : String) : TokenDef := ⟨s.toList, false, none⟩

/-- Tokens `if`, `[a-z]+`, `(a|bc*)+`. -/
def sampleToks : List (TokenDef × Hir) :=
  [(tok "if", .concat [.lit 105, .lit 102]),
   (⟨"ident".toList, true, none⟩, .rep .oneOrMore (.cls [(97, 122)])),
   (tok "x", sampleHir)]

example : ∃ n, Nfa.fromRegex sampleHir = .ok n ∧ n.states.length = 11 ∧ n.edges.length = 14 :=
  ⟨_, rfl, by decide, by decide⟩
example : ∃ ns, Lex.buildNfas sampleToks = .ok ns ∧ (Lex.combine ns).1.states.length = 23 :=
  ⟨_, rfl, by decide⟩

/-- C16.  There is a strictly increasing numbering `acc` of the tokens by states
such that the accepting states of the combined automaton are exactly those, the
token map sends `acc i` to the `i`-th definition and contains nothing else, and
`acc i` is reached from the start over `w` exactly when the `i`-th regex matches
`w`. -/
theorem C16_combine {toks : List (TokenDef × Hir)} {ns : List (TokenDef × Nfa)}
    (hb : Lex.buildNfas toks = .ok ns) :
    ∃ acc : Nat → Nat,
      (∀ i j, i < j → j < toks.length → acc i < acc j) ∧
      (∀ x, x ∈ (Lex.combine ns).1.acceptingStates ↔ ∃ i, i < toks.length ∧ x = acc i) ∧
      (∀ i t h, toks[i]? = some (t, h) → mget (acc i) (Lex.combine ns).2 = some t) ∧
      (∀ x t, mget x (Lex.combine ns).2 = some t → ∃ i h, x = acc i ∧ toks[i]? = some (t, h)) ∧
      (∀ i t h, toks[i]? = some (t, h) → ∀ w, Path (Lex.combine ns).1.edges Nfa.START w (acc i) ↔ Matches h w) := by
  obtain ⟨acc, hc⟩ := Lex.combined hb
  have inj : ∀ i j, i < toks.length → j < toks.length → acc i = acc j → i = j := by
    intro i j hi hj h
    rcases Nat.lt_trichotomy i j with h' | h' | h'
    · have := hc.mono i j h' hj; omega
    · exact h'
    · have := hc.mono j i h' hi; omega
  have hget : ∀ (is : List Nat) (f : Nat → TokenDef), (∀ i ∈ is, i < toks.length) → ∀ x t,
      mget x (is.map fun i => (acc i, f i)) = some t ↔ ∃ i ∈ is, x = acc i ∧ t = f i := by
    intro is f
    induction is with
    | nil => simp [mget]
    | cons i is ih =>
      intro his x t
      simp only [List.map_cons, mget]
      split
      · rename_i hx
        constructor
        · intro h; exact ⟨i, by simp, hx, by simpa using h.symm⟩
        · rintro ⟨j, hj, hx', rfl⟩
          have := inj i j (his i (by simp)) (his j hj) (hx ▸ hx')
          rw [this]
      · rename_i hx
        rw [ih (fun j hj => his j (by simp [hj]))]
        constructor
        · rintro ⟨j, hj, h⟩; exact ⟨j, by simp [hj], h⟩
        · rintro ⟨j, hj, h⟩
          rcases List.mem_cons.mp hj with rfl | hj
          · exact absurd h.1 hx
          · exact ⟨j, hj, h⟩
  refine ⟨acc, hc.mono, hc.accepting, ?_, ?_, fun i t h ht w => hc.lang i t h ht w⟩
  · intro i t h ht
    have hi := (List.getElem?_eq_some_iff.mp ht).1
    rw [hc.tokens, hget _ _ (by simp)]
    exact ⟨i, by simpa using hi, rfl, by simp [List.getD, ht]⟩
  · intro x t hx
    rw [hc.tokens, hget _ _ (by simp)] at hx
    obtain ⟨i, hi, h1, h2⟩ := hx
    simp only [List.mem_range] at hi
    refine ⟨i, toks[i].2, h1, ?_⟩
    rw [h2, List.getElem?_eq_getElem hi]
    simp [List.getD, hi]

/-- C16 for three tokens, two of which overlap: the accepting states found. -/
example : ∃ ns, Lex.buildNfas sampleToks = .ok ns ∧
    (Lex.combine ns).1.acceptingStates = [2, 6, 13] ∧
    (Lex.combine ns).2.map Prod.fst = [2, 6, 13] :=
  ⟨_, rfl, by decide, by decide⟩

end Verif.Props
