import Verif.Proofs.NfaSim
import Mathlib.Tactic.Tauto

/-! # C01, C02, C03 (first part), C04: regexes and NFAs -/

namespace Verif.Props
open Verif Verif.Spec

theorem reorders_ok {ord : Nfa.Order} (h : Reorders ord) : Nfa.OrderOk ord :=
  fun i l _ => (h i l).mem_iff

mutual
theorem supported_or : ∀ h : Hir, Supported h ∨ Unsupported h
  | .empty => .inl .empty
  | .lit c => .inl (.lit c)
  | .cls rs => .inl (.cls rs)
  | .anchor => .inr .anchor
  | .wordBoundary => .inr .wordBoundary
  | .rep k h => by
    by_cases hk : k = .range
    · subst hk; exact .inr (.range h)
    by_cases hb : BareEmpty h
    · exact .inr (.repEmpty hb)
    · exact (supported_or h).imp (fun hs => .rep hk hs hb) .rep
  | .group h => (supported_or h).imp .group .group
  | .concat hs => by
    by_cases hb : ∃ h ∈ hs, BareEmpty h
    · obtain ⟨h, h1, h2⟩ := hb; exact .inr (.concatEmpty h1 h2)
    · rcases supported_or_list hs with h | ⟨h, h1, h2⟩
      · exact .inl (.concat h (by simpa using hb))
      · exact .inr (.concat h1 h2)
  | .alt hs => by
    by_cases hb : ∃ h ∈ hs, BareEmpty h
    · obtain ⟨h, h1, h2⟩ := hb; exact .inr (.altEmpty h1 h2)
    · rcases supported_or_list hs with h | ⟨h, h1, h2⟩
      · exact .inl (.alt h (by simpa using hb))
      · exact .inr (.alt h1 h2)
theorem supported_or_list : ∀ hs : List Hir, (∀ h ∈ hs, Supported h) ∨ ∃ h ∈ hs, Unsupported h
  | [] => .inl (by simp)
  | h :: hs => by
    rcases supported_or h with h1 | h1
    · rcases supported_or_list hs with h2 | ⟨h', h2, h3⟩
      · exact .inl (by
          intro x hx
          rcases List.mem_cons.mp hx with rfl | hx
          · exact h1
          · exact h2 x hx)
      · exact .inr ⟨h', by simp [h2], h3⟩
    · exact .inr ⟨h, by simp, h1⟩
end

theorem not_both {h : Hir} (hu : Unsupported h) : ¬ Supported h := by
  induction hu with
  | anchor => intro h; cases h
  | wordBoundary => intro h; cases h
  | range h => intro h; cases h; contradiction
  | repEmpty hb => intro h; cases h; contradiction
  | concatEmpty h1 h2 => intro h; cases h with | concat _ h => exact h _ h1 h2
  | altEmpty h1 h2 => intro h; cases h with | alt _ h => exact h _ h1 h2
  | rep _ ih => intro h; cases h; exact ih (by assumption)
  | group _ ih => intro h; cases h; exact ih (by assumption)
  | concat h1 _ ih => intro h; cases h with | concat h _ => exact ih (h _ h1)
  | alt h1 _ ih => intro h; cases h with | alt h _ => exact ih (h _ h1)

/-- C01.  The NFA built from a regex simulates to true on exactly the strings the
regex matches, whatever the hash iteration order. -/
theorem C01_simulate_iff_matches {h : Hir} {n : Nfa} (hn : Nfa.fromRegex h = .ok n)
    {ord : Nfa.Order} (ho : Reorders ord) (s : Str) :
    ∃ b, n.simulate ord s = .ok b ∧ (b = true ↔ Matches h s) := by
  have hg := Nfa.fromRegex_good hn
  obtain ⟨b, h1, h2⟩ := Nfa.simulate_spec hg.wf (reorders_ok ho) s
  refine ⟨b, h1, ?_⟩
  rw [h2, ← hg.lang s]
  constructor
  · rintro ⟨x, hp, hx⟩
    rw [hg.mem_acceptingStates] at hx
    exact hx ▸ hp
  · intro hp
    exact ⟨1, hp, (hg.mem_acceptingStates 1).mpr rfl⟩

/-- `(a|bc*)+`, used as the concrete case below. -/
def sampleHir : Hir :=
  .rep .oneOrMore (.group (.alt [.lit 97, .concat [.lit 98, .rep .zeroOrMore (.lit 99)]]))

/-- The identity and list reversal are possible iteration orders. -/
theorem reorders_id : Reorders fun _ l => l := fun _ _ => .refl _
theorem reorders_reverse : Reorders fun _ l => l.reverse := fun _ l => l.reverse_perm

example : ∃ n, Nfa.fromRegex sampleHir = .ok n ∧
    n.simulate (fun _ l => l) "abcca".toList = .ok true ∧
    n.simulate (fun _ l => l.reverse) "abcca".toList = .ok true ∧
    n.simulate (fun _ l => l) "acb".toList = .ok false := by
  refine ⟨_, rfl, ?_, ?_, ?_⟩ <;> rfl

/-- C02.  Compilation fails exactly on regexes containing an unsupported
construct. -/
theorem C02_fails_iff (h : Hir) : (∃ e, Nfa.fromRegex h = .error e) ↔ Unsupported h := by
  have key : (∃ n, Nfa.fromRegex h = .ok n) ↔ Supported h := by
    rw [← Nfa.compile_ok_iff h Nfa.init Nfa.FINAL]
    unfold Nfa.fromRegex
    constructor
    · rintro ⟨n, hn⟩
      cases hc : Nfa.compile h Nfa.init Nfa.FINAL with
      | error e => simp [hc, bind, Except.bind] at hn
      | ok p => exact ⟨p, rfl⟩
    · rintro ⟨p, hp⟩
      simp [hp, bind, Except.bind, pure, Except.pure]
  constructor
  · rintro ⟨e, he⟩
    rcases supported_or h with hs | hu
    · obtain ⟨n, hn⟩ := key.mpr hs
      rw [hn] at he; cases he
    · exact hu
  · intro hu
    cases hc : Nfa.fromRegex h with
    | error e => exact ⟨e, rfl⟩
    | ok n => exact absurd (key.mp ⟨n, hc⟩) (not_both hu)

/-- C02.  On every other regex it returns an NFA. -/
theorem C02_ok_iff (h : Hir) : (∃ n, Nfa.fromRegex h = .ok n) ↔ ¬ Unsupported h := by
  rw [← C02_fails_iff]
  cases Nfa.fromRegex h <;> simp

example : Unsupported (.concat [.lit 97, .rep .range (.lit 98)]) :=
  .concat (h := .rep .range (.lit 98)) (by simp) (.range _)
example : Nfa.fromRegex (.concat [.lit 97, .rep .range (.lit 98)]) = .error .todo := rfl
/-- `(a|)` panics on the empty alternative. -/
example : Nfa.fromRegex (.alt [.lit 97, .empty]) = .error .optionUsizeNone := rfl
example : ¬ Unsupported sampleHir := by
  rw [← C02_ok_iff]; exact ⟨_, rfl⟩

/-- C04.  On every NFA (any edges, any cycles) `epsilon_closure` terminates and
returns, without duplicates, exactly the states reachable through edges the
adjacency walk `edge_iter` yields; hence the same set for every iteration order. -/
theorem C04_epsClosure (n : Nfa) {ord : Nfa.Order} (ho : Reorders ord) (i : Nat) (set : List Nat) :
    ∃ r, n.epsClosure ord i set = .ok r ∧ r.Nodup ∧
      ∀ x, x ∈ r ↔ ∃ s ∈ set, EpsReach ((List.range n.states.length).flatMap n.edgeIter) s x :=
  n.epsClosure_ok (reorders_ok ho) i set

/-- C04.  In an NFA built from a regex these are the states reachable through the
epsilon edges of the automaton. -/
theorem C04_epsClosure_regex {h : Hir} {n : Nfa} (hn : Nfa.fromRegex h = .ok n)
    {ord : Nfa.Order} (ho : Reorders ord) (i : Nat) (set : List Nat) :
    ∃ r, n.epsClosure ord i set = .ok r ∧ r.Nodup ∧
      ∀ x, x ∈ r ↔ ∃ s ∈ set, EpsReach n.edges s x := by
  obtain ⟨r, h1, h2, h3⟩ := n.epsClosure_ok (reorders_ok ho) i set
  refine ⟨r, h1, h2, fun x => (h3 x).trans ?_⟩
  have hm := fun e => Nfa.mem_visible_wf (Nfa.fromRegex_good hn).wf (e := e)
  constructor <;> rintro ⟨s, hs, hp⟩
  · exact ⟨s, hs, Nfa.EpsReach.mono' (fun e he => (hm e).mp he) hp⟩
  · exact ⟨s, hs, Nfa.EpsReach.mono' (fun e he => (hm e).mpr he) hp⟩

/-- C04.  Order independence: two iteration orders give the same set. -/
theorem C04_order_independent (n : Nfa) {ord ord' : Nfa.Order} (ho : Reorders ord)
    (ho' : Reorders ord') (i j : Nat) (set r r' : List Nat)
    (h1 : n.epsClosure ord i set = .ok r) (h2 : n.epsClosure ord' j set = .ok r') : r.Perm r' := by
  obtain ⟨q, e1, n1, m1⟩ := n.epsClosure_ok (reorders_ok ho) i set
  obtain ⟨q', e2, n2, m2⟩ := n.epsClosure_ok (reorders_ok ho') j set
  rw [h1] at e1; rw [h2] at e2
  cases e1; cases e2
  exact (List.perm_ext_iff_of_nodup n1 n2).mpr fun x => (m1 x).trans (m2 x).symm

/-- An automaton with an epsilon cycle through its start state. -/
example : (Nfa.mk [⟨0, none, 1⟩, ⟨1, none, 0⟩, ⟨1, none, 2⟩]
      [⟨some 0, false⟩, ⟨some 1, false⟩, ⟨none, true⟩]).epsClosure (fun _ l => l) 0 [0] =
    .ok [2, 1, 0] := rfl

end Verif.Props
