import Verif.Proofs.OverlapSize
import Verif.Proofs.SizesOk
import Verif.Props.Dfa
import Verif.Props.Ranges
import Verif.Props.Tables

/-! # C67: sizes of the automata and tables -/

namespace Verif.Props
open Verif Verif.Spec

/-- C67.  The automaton of a regex is linear in its size. -/
theorem C67_regex {h : Hir} {n : Nfa} (hn : Nfa.fromRegex h = .ok n) :
    n.states.length ≤ 2 * size h + 2 ∧ n.edges.length ≤ 4 * size h := Nfa.fromRegex_size hn

/-- `(ab?)*`: size 6, with 8 states and 10 edges. -/
example : ∃ n, Nfa.fromRegex (.rep .zeroOrMore (.group (.concat [.lit 97, .rep .zeroOrOne (.lit 98)]))) = .ok n ∧
    size (.rep .zeroOrMore (.group (.concat [.lit 97, .rep .zeroOrOne (.lit 98)]))) = 6 ∧
    n.states.length = 8 ∧ n.edges.length = 10 := ⟨_, rfl, rfl, rfl, rfl⟩

/-- C67.  The combined automaton of token regexes is linear in their size. -/
theorem C67_combined {toks : List (TokenDef × Hir)} {ns : List (TokenDef × Nfa)} (hb : Lex.buildNfas toks = .ok ns) :
    (Lex.combine ns).1.states.length ≤ 2 * sizes (toks.map Prod.snd) + 2 * toks.length + 1 ∧
    (Lex.combine ns).1.edges.length ≤ 4 * sizes (toks.map Prod.snd) + toks.length := by
  obtain ⟨h1, h2, h3⟩ := Lex.buildNfas_size toks ns hb
  obtain ⟨h4, h5⟩ := Lex.combine_size ns
  omega

/-- C67.  The subset construction makes at most one state per set of states of the automaton, and at most
one edge for each state and each piece of the alphabet. -/
theorem C67_dfa {n : Nfa} (hn : CrateNfa n) {ord : Nfa.Order} (ho : Reorders ord) {al : List Match}
    (hne : ∀ a ∈ al, ∃ c, Mem c a) {d : Dfa} (hd : Dfa.build n ord al = .ok d) :
    d.states.length ≤ 2 ^ n.states.length ∧ d.edges.length ≤ d.states.length * al.length := by
  have hb := hn.base
  obtain ⟨r, h3, _, h4⟩ := Nfa.start_closure hb.wf (reorders_ok ho) 0
  obtain ⟨d', D, h5, h6⟩ := Dfa.build_spec (n := n) (ord := ord) (alphabet := al) (tr := Dfa.tr n)
    (s0 := ofList (ord 1 r)) (fun u l => (Dfa.tr_spec hb u l).1) (P := Dfa.SetOk n)
    (by
      intro u l _ hu _
      refine ⟨(Dfa.tr_spec hb u l).2.1, fun x hx => ?_⟩
      obtain ⟨e, he, _, _, _, _, _, hr⟩ := ((Dfa.tr_spec hb u l).2.2 x).mp hx
      exact hb.epsReach_lt hr (hb.bound e he).2)
    (fun u hu => hu) h3 rfl
    ⟨sorted_ofList _, fun x hx => hb.path_lt (by
      rw [mem_ofList, (ho 1 r).mem_iff, h4] at hx; exact hx) hb.start⟩
  obtain rfl : d' = d := by rw [h5] at hd; cases hd; rfl
  refine ⟨by rw [h6.len]; exact Dfa.sets_bound _ D h6.nodup h6.all, ?_⟩
  refine length_le_of_filter (fun e => e.src) al.length _ _ (fun e he => by rw [h6.len]; exact (h6.bound e he).1) ?_
  intro t ht
  obtain ⟨u, hu⟩ : ∃ u, D[t]? = some u := ⟨_, List.getElem?_eq_getElem (by rw [← h6.len]; exact ht)⟩
  have := h6.iter t u hu
  rw [h6.filter] at this
  rw [← this.length_eq]
  exact List.length_filter_le _ _

/-- The automaton of `(ab?)*` has three sets of states that can be reached, of 256. -/
example : ∃ n d, Nfa.fromRegex (.rep .zeroOrMore (.group (.concat [.lit 97, .rep .zeroOrOne (.lit 98)]))) = .ok n ∧
    Dfa.build n (fun _ l => l) [⟨97, 98⟩, ⟨98, 99⟩] = .ok d ∧ n.states.length = 8 ∧
    d.states.length = 3 ∧ d.edges.length = 4 := ⟨_, _, rfl, rfl, rfl, rfl, rfl⟩

/-- C67.  `remove_overlap` makes at most as many pieces as the ranges have code points, and fewer than two for each
range under the conditions of `C06_atoms_partial`. -/
theorem C67_alphabet (ranges : List Match) : ∃ out, Overlap.removeOverlap (ofList ranges) = .ok out ∧
    out.length ≤ (ranges.map fun r => r.hi - r.lo).sum ∧
    ((ofList ranges).length ≤ 3 ∨ Tame ranges → out.length ≤ 2 * ranges.length - 1) := by
  obtain ⟨l, h1, h2⟩ := Overlap.removeOverlap_ins (ofList ranges)
  refine ⟨_, h2, ?_, fun hl => ?_⟩
  · have h3 := h1.total_le
    have h4 := Overlap.total_ofList ranges
    have h5 := Overlap.total_filter l
    simp only [Overlap.total_nil] at h3
    exact Nat.le_trans h5 (Nat.le_trans h3 (by rw [Nat.zero_add]; exact h4))
  · obtain ⟨out, h3, h4, _⟩ := C06_atoms_partial ranges hl
    rw [h2] at h3; cases h3
    by_cases hne : (l.filter fun r => !r.isEmpty) = []
    · simp [hne]
    · have := Overlap.pieces_lt (rs := ranges) (h4.imp fun h c h1 h2 => h c h1 h2) (fun p hp => by
          have := (List.mem_filter.mp hp).2; simpa [Match.isEmpty] using this) (fun p hp => by
          have := h1.bounds p (List.mem_filter.mp hp).1
          simpa only [List.append_nil, mem_ofList] using this) hne
      omega

/-- `[a-z]`, `i` and `f`: five pieces of three ranges; and four ranges that overlap otherwise: seven pieces. -/
example : (Overlap.removeOverlap (ofList [⟨97, 123⟩, ⟨105, 106⟩, ⟨102, 103⟩])).toOption.map List.length = some 5 ∧
    (Overlap.removeOverlap (ofList [⟨99, 100⟩, ⟨97, 101⟩, ⟨98, 107⟩, ⟨99, 117⟩])).toOption.map List.length = some 7 := by
  decide +kernel

/-- C67.  There is at most one LR(1) set per set of items with lookaheads. -/
theorem C67_items {ps : List Ast.Prod} (he : Expressible ps) {g : Grammar} (hg : Grammar.fromAst ps = .ok g)
    {depth : Nat} {c : List ItemSet} (hc : ItemSet.items g depth = .ok c) :
    c.length ≤ 2 ^ (dots g * g.tokens.length) := by
  have hok := Grammar.gok_of_fromAst he hg
  obtain ⟨h1, h2, _, h3, _⟩ := C22_items_exact he hg depth hc
  exact ItemSet.bound h1 (fun s hs => (h2 s hs).1) fun s hs it la => ItemSet.reach_rng hok (h3 s hs) it la

variable {H : Type} [DecidableEq H] (hash : List Item → H)

/-- C67.  There is at most one LALR(1) state per set of items without lookaheads, and not more states than
LR(1) sets; the states are numbered by the rows of the tables. -/
theorem C67_states {ps : List Ast.Prod} (he : Expressible ps) {g : Grammar} (hg : Grammar.fromAst ps = .ok g)
    {depth : Nat} {lr : List ItemSet} (hc : ItemSet.items g depth = .ok lr) (hh : CollisionFree hash lr)
    {states : List ItemSet} {m : List (Nat × Nat)} (hm : Lalr.mergeCores hash lr = .ok (states, m)) :
    states.length ≤ lr.length ∧ states.length ≤ 2 ^ dots g := by
  have hok := Grammar.gok_of_fromAst he hg
  obtain ⟨h1, h2, _, h3, _⟩ := C22_items_exact he hg depth hc
  obtain ⟨states', m', h4, h5, h6, h7, _⟩ := C23_merge_exact (fun s hs => (h2 s hs).1) hh
  obtain ⟨rfl, rfl⟩ : states' = states ∧ m' = m := by rw [h4] at hm; cases hm; exact ⟨rfl, rfl⟩
  have hlen : states'.length = (firsts (lr.map coreOf)).length := by rw [← h5, List.length_map]
  refine ⟨?_, ?_⟩
  · have := firsts_length_le (lr.map coreOf)
    rw [List.length_map] at this
    omega
  · rw [hlen, ← h5]
    have := ItemSet.cores_bound (g := g) (l := states'.map coreOf) (by rw [h5]; exact nodup_firsts _)
      (by
        intro u hu
        obtain ⟨s, hs, rfl⟩ := List.mem_map.mp hu
        exact (h6 s hs).keys)
      (by
        intro u hu it hit
        obtain ⟨s, hs, rfl⟩ := List.mem_map.mp hu
        obtain ⟨⟨it', las⟩, hm', rfl⟩ := List.mem_map.mp hit
        obtain ⟨la, hla⟩ := List.exists_mem_of_ne_nil las ((h6 s hs).las _ _ hm').1
        obtain ⟨t, ht, _, hht⟩ := (h7 s hs it' la).mp ⟨las, hm', hla⟩
        obtain ⟨⟨p, hp, hd⟩, _⟩ := ItemSet.reach_rng hok (h3 t ht) _ _ hht
        exact ItemSet.mem_allDots hp hd)
    rw [ItemSet.allDots_length] at this
    exact this

/-- `S -> C C, C -> "c" C | "d"`: ten LR(1) sets and seven states, with ten dots and six tokens. -/
example : ItemSet.items ccG 6 = .ok ccSets ∧ ccSets.length = 10 ∧ dots ccG = 10 ∧
    (Lalr.mergeCores id ccSets).toOption.map (fun r => r.1.length) = some 7 :=
  ⟨cc_items, by decide +kernel, by decide +kernel, by decide +kernel⟩

end Verif.Props
