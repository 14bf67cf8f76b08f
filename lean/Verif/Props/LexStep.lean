import Verif.Spec.LexStep
import Verif.Props.LexExact

/-! # Property: one step of the lexer (C90) -/

namespace Verif.Props
open Verif Spec

/-- **C90.**  In the state after `w`, `matches` answers for the character `c`: the state after `w c` if that can be read; an error
if not, and something else could follow, and `c` is not blank; otherwise nothing. -/
theorem C90_exact {toks : List (TokenDef × Hir)} {lx : Lex} {ord : Nfa.Order} (ho : Reorders ord)
    (h : Lex.fromTokens ord toks = .ok lx) :
    ∃ al, Overlap.removeOverlap (ofList (rangesOf toks)) = .ok al ∧ ∀ w q, DWalk lx.dfa w q → ∀ c,
      (∀ q', lx.step q c = .ok (some q') ↔ DWalk lx.dfa (w ++ [c]) q') ∧
      ((∃ q', lx.step q c = .ok (some q')) ↔ PViable al toks (w ++ [c])) ∧
      (lx.step q c = .error () ↔ ¬ PViable al toks (w ++ [c]) ∧ ¬ Ended al toks w ∧ ¬ Blank c) ∧
      (lx.step q c = .ok none ↔ ¬ PViable al toks (w ++ [c]) ∧ (Ended al toks w ∨ Blank c)) := by
  obtain ⟨N, acc, al, D, s0, M, P⟩ := Lex.fromTokens_pmade (reorders_ok ho) h
  refine ⟨al, built_alphabet M.built (combined_labels M.comb), fun w q hw c => ?_⟩
  have viable : ∀ w, (∃ t, lx.dfa.walk 0 w = some t) ↔ PViable al toks w := fun w => by
    rw [← Option.isSome_iff_exists]; exact M.built.walk_reads P.leaves
  have hw' := dwalk_iff.mp hw
  have hsnoc : lx.dfa.walk 0 (w ++ [c]) = (lx.dfa.findEdge q c).map (·.dst) := by
    rw [Dfa.walk_snoc, hw']; rfl
  obtain ⟨as, hr, u, hu, hx⟩ := M.built.pwalk P.leaves hw'
  have hend : Ended al toks w ↔ lx.dfa.edgeIter q = [] := by
    have hit := M.built.spec.iter q u hu
    constructor
    · rintro ⟨bs, hb, hno⟩
      obtain rfl := reads_unique hr hb rfl
      refine List.eq_nil_iff_forall_not_mem.mpr fun e he => ?_
      obtain ⟨a, ha, -⟩ := Dfa.forall₂_mem_right hit he
      rw [List.mem_filter] at ha
      obtain ⟨m, hm, hwn⟩ := (M.built.ptr_ne hx ha.1).mp (by simpa using ha.2)
      exact hno a ha.1 m (P.leaves bs ▸ hm) hwn
    · intro hn
      refine ⟨as, hr, fun a ha m hm hwn => ?_⟩
      obtain ⟨e, he, -⟩ := Dfa.forall₂_mem_left hit (a := a) (by
        rw [List.mem_filter]
        exact ⟨ha, by simpa using (M.built.ptr_ne hx ha).mpr ⟨m, P.leaves as ▸ hm, hwn⟩⟩)
      simp [hn] at he
  have hfirst := M.built.spec.hasFirst q
  rw [hend, hfirst, ← viable, hsnoc]
  simp only [dwalk_iff, hsnoc, ← Lex.blank_iff]
  unfold Lex.step
  cases hq : (lx.dfa.states[q]?).bind id with
  | none =>
    have : lx.dfa.findEdge q c = none := by
      unfold Dfa.findEdge; rw [hfirst.mpr hq]; rfl
    simp [this]
  | some i =>
    cases lx.dfa.findEdge q c with
    | some e => simp
    | none =>
      by_cases hb : Lex.isWhitespace c = true
      · simp [hb]
      · simp [hb]

/-- The tokens `a` and `bc`. -/
def stepToks : List (TokenDef × Hir) :=
  [(⟨"a".toList, false, none⟩, .lit 97), (⟨"b".toList, true, none⟩, .concat [.lit 98, .lit 99])]

-- C90: the hypotheses, and all the answers.  After `a` even an `x` is no error.
example : ∃ lx, Lex.fromTokens (fun _ l => l) stepToks = .ok lx ∧ Reorders (fun _ l => l) ∧
    (∃ q, DWalk lx.dfa ['b'] q ∧ (∃ q', lx.step q 'c' = .ok (some q')) ∧ lx.step q 'x' = .error () ∧ lx.step q ' ' = .ok none) ∧
    ∃ q, DWalk lx.dfa ['a'] q ∧ lx.step q 'x' = .ok none := by
  refine ⟨_, rfl, reorders_id, ?_, ?_⟩
  · exact ⟨2, dwalk_iff.mpr (by decide +kernel), ⟨3, rfl⟩, rfl, rfl⟩
  · exact ⟨1, dwalk_iff.mpr (by decide +kernel), rfl⟩

end Verif.Props
