import Verif.Proofs.MunchUnique
import Verif.Proofs.TsLexRun

/-! The type-level lexer reads piece by piece. -/

namespace Verif
open Spec

namespace Lex
variable {T : List Char → Nat → Prop} {V : List Char → Prop}

theorem munchErr_unique (hT : ∀ w i j, T w i → T w j → i = j) (hTV : ∀ c w i, T (c :: w) i → V [c])
    (hV : ∀ v w, V (v ++ w) → V v) {k input out er} (h : MunchErr T V k input out er) :
    ∀ {out' er'}, MunchErr T V k input out' er' → out' = out ∧ er' = er := by
  have hVt : ∀ {w : List Char}, V w → ∀ j, V (w.take j) := fun {w} h j => by
    rw [← List.take_append_drop j w] at h
    exact hV _ _ h
  induction h with
  | done =>
    intro out' er' h'
    cases h' with
    | done => exact ⟨rfl, rfl⟩
    | tok h1 => exact (longestToken_nil h1).elim
    | tokEnd h1 => exact (longestToken_nil h1).elim
    | cut h1 => exact absurd rfl h1
    | bad _ h1 => simp at h1
  | @blank k c rest out err h1 h2 _ ih =>
    intro out' er' h'
    cases h' with
    | blank _ _ h => exact ih h
    | tok h1 => exact absurd (longestToken_viable hTV h1) h2
    | tokEnd h1 => exact absurd (longestToken_viable hTV h1) h2
    | cut _ _ h3 => exact absurd (hV [c] _ h3) h2
    | @bad _ _ j c' _ g1 g2 _ g4 =>
      cases j with
      | zero => simp at g1; subst g1; exact absurd ⟨rfl, h1⟩ g4
      | succ j => exact absurd (g2 1 (by omega) (by omega)) (by simpa using h2)
  | tok h1 h3 h4 _ ih =>
    intro out' er' h'
    cases h' with
    | done => exact (longestToken_nil h1).elim
    | blank _ h6 => exact absurd (longestToken_viable hTV h1) h6
    | tok g1 g3 _ g5 =>
      obtain ⟨rfl, rfl⟩ := longestToken_unique hT h1 g1
      have := List.append_cancel_left (h3.symm.trans g3)
      subst this
      obtain ⟨rfl, rfl⟩ := ih g5
      exact ⟨rfl, rfl⟩
    | tokEnd _ _ g4 => exact absurd g4 h4
    | cut _ g1 => exact (longestToken_not_stop h1 g1).elim
    | bad g1 => exact (longestToken_not_stop h1 g1).elim
  | tokEnd h1 h3 h4 =>
    intro out' er' h'
    cases h' with
    | done => exact (longestToken_nil h1).elim
    | blank _ h6 => exact absurd (longestToken_viable hTV h1) h6
    | tok _ _ g4 _ => exact absurd h4 g4
    | tokEnd g1 _ _ =>
      obtain ⟨rfl, rfl⟩ := longestToken_unique hT h1 g1
      exact ⟨rfl, rfl⟩
    | cut _ g1 => exact (longestToken_not_stop h1 g1).elim
    | bad g1 => exact (longestToken_not_stop h1 g1).elim
  | cut h0 h1 h2 =>
    intro out' er' h'
    cases h' with
    | done => exact absurd rfl h0
    | blank _ h6 => exact absurd (hV [_] _ h2) h6
    | tok g1 => exact (longestToken_not_stop g1 h1).elim
    | tokEnd g1 => exact (longestToken_not_stop g1 h1).elim
    | cut => exact ⟨rfl, rfl⟩
    | bad _ _ _ g3 => exact absurd (hVt h2 _) g3
  | @bad k input j c h1 hc h2 h3 h4 =>
    intro out' er' h'
    cases h' with
    | done => simp at hc
    | @blank _ d rest _ _ g1 g2 _ =>
      cases j with
      | zero => simp at hc; subst hc; exact absurd ⟨rfl, g1⟩ h4
      | succ j => exact absurd (h2 1 (by omega) (by omega)) (by simpa using g2)
    | tok g1 => exact (longestToken_not_stop g1 h1).elim
    | tokEnd g1 => exact (longestToken_not_stop g1 h1).elim
    | cut _ _ g => exact absurd (hVt g _) h3
    | @bad _ _ j' c' _ gc g2 g3 _ =>
      have h5 : ¬ j < j' := fun h => h3 (g2 (j + 1) (by omega) (by omega))
      have h6 : ¬ j' < j := fun h => g3 (h2 (j' + 1) (by omega) (by omega))
      have : j = j' := by omega
      subst this
      rw [hc] at gc; cases gc
      exact ⟨rfl, rfl⟩

variable {toks : List (TokenDef × Hir)} {al : List Match}

theorem pmunchErr_unique {k input out er} (h : MunchErr (PToken al toks) (PViable al toks) k input out er)
    {out' er'} (h' : MunchErr (PToken al toks) (PViable al toks) k input out' er') : out' = out ∧ er' = er :=
  munchErr_unique (T := PToken al toks) (V := PViable al toks) (fun _ _ _ => pToken_unique)
    (fun c w _ h => by
      obtain ⟨as, hr, _⟩ := h
      exact reads_append (w := [c]) (v := w) (as := as) hr)
    (fun v w h => by
      obtain ⟨as, hr⟩ := h
      exact reads_append (w := v) (v := w) (as := as) hr) h h'

theorem munchErr_mem {V : List Char → Prop} (hs : ∀ w i, w ≠ [] → PToken al toks w i →
      ∃ q, toks[i]? = some q ∧ Matches q.2 w) {k input out er} (h : MunchErr (PToken al toks) V k input out er) :
    (∀ p ∈ out, ∃ q, toks[p.2.1]? = some q ∧ Matches q.2 p.2.2) ∧ out.length ≤ input.length := by
  induction h with
  | done => simp
  | blank _ _ _ ih => exact ⟨ih.1, by simp; omega⟩
  | @tok k input w i rest out err h1 h3 _ _ ih =>
    have : 0 < w.length := List.length_pos_iff.mpr h1.1
    refine ⟨?_, by rw [h3]; simp; omega⟩
    intro x hx
    rcases List.mem_cons.mp hx with rfl | hx
    · exact hs _ _ h1.1 h1.2.2.1
    · exact ih.1 x hx
  | @tokEnd k input w i rest h1 h3 _ =>
    have : 0 < w.length := List.length_pos_iff.mpr h1.1
    refine ⟨?_, by rw [h3]; simp; omega⟩
    intro x hx
    simp only [List.mem_cons, List.not_mem_nil, or_false] at hx
    subst hx
    exact hs _ _ h1.1 h1.2.2.1
  | cut => simp
  | bad => simp

theorem munchErr_where {V : List Char → Prop} {k input out er} (h : MunchErr (PToken al toks) V k input out er) :
    ∀ p ∈ out, ∃ pre post, input = pre ++ (p.2.2 ++ post) ∧ p.1 = k + pre.length ∧ p.2.2 ≠ [] ∧
      ∃ q, toks[p.2.1]? = some q := by
  have hq : ∀ {w i}, PToken al toks w i → ∃ q, toks[i]? = some q := fun h => by
    obtain ⟨_, _, ⟨q, hq, _⟩, _⟩ := h; exact ⟨q, hq⟩
  induction h with
  | done => simp
  | @blank k c rest out err _ _ _ ih =>
    intro p hp
    obtain ⟨pre, post, h1, h2, h3⟩ := ih p hp
    exact ⟨c :: pre, post, by simp [h1], by simp [h2]; omega, h3⟩
  | @tok k input w i rest out err h1 h3 _ _ ih =>
    intro p hp
    rcases List.mem_cons.mp hp with rfl | hp
    · exact ⟨[], rest, by simp [h3], by simp, h1.1, hq h1.2.2.1⟩
    · obtain ⟨pre, post, h4, h5, h6⟩ := ih p hp
      exact ⟨w ++ pre, post, by simp [h3, h4], by simp [h5]; omega, h6⟩
  | @tokEnd k input w i rest h1 h3 _ =>
    intro p hp
    simp only [List.mem_cons, List.not_mem_nil, or_false] at hp
    subst hp
    exact ⟨[], rest, by simp [h3], by simp, h1.1, hq h1.2.2.1⟩
  | cut => simp
  | bad => simp

variable {lx : Lex} {N : Nfa} {acc : Nat → Nat} {D : List (List Nat)} {s0 : List Nat}

theorem Made.pscan (M : Made toks lx N acc al D s0) (P : PCombined toks N acc) {k input out er}
    (h : RunE lx k input out er) : ∃ out', MunchErr (PToken al toks) (PViable al toks) k input out' er ∧
      List.Forall₂ (Same lx acc) out out' := by
  have viable : ∀ w, (lx.dfa.walk 0 w).isSome = true ↔ PViable al toks w := fun w => M.built.walk_reads P.leaves
  have hno : ∀ {input : List Char}, (∀ p a, (∃ r, input = p ++ r) → ¬ lx.Acc p a) →
      ∀ v i, v ≠ [] → (∃ r, input = v ++ r) → ¬ PToken al toks v i := by
    intro input h1 v i hne hvp hm
    exact h1 v _ hvp ((M.acc_iff P hne).mpr ⟨i, rfl, hm⟩)
  induction h with
  | done => exact ⟨[], .done, .nil⟩
  | ws h1 hf _ ih =>
    obtain ⟨out', h3, h4⟩ := ih
    refine ⟨out', .blank (blank_iff.mp h1) ?_ h3, h4⟩
    rw [← viable, walk_single]
    simpa using hf
  | tok h1 hw ha h2 h5 _ ih =>
    obtain ⟨out', h3, h4⟩ := ih
    obtain ⟨i, rfl, hm⟩ := M.plongest P h1
    refine ⟨(_, i, _) :: out', .tok hm h2 ?_ h3, .cons ⟨rfl, rfl, ha, M.walk_lt M.bound.2 hw⟩ h4⟩
    rw [← viable, h5]; simp
  | tokEnd h1 hw ha h2 h5 =>
    obtain ⟨i, rfl, hm⟩ := M.plongest P h1
    exact ⟨[(_, i, _)], .tokEnd hm h2 ((viable _).mp h5), .cons ⟨rfl, rfl, ha, M.walk_lt M.bound.2 hw⟩ .nil⟩
  | cut h0 h1 h2 => exact ⟨[], .cut h0 (hno h1) ((viable _).mp h2), .nil⟩
  | @bad k input j c h1 hc h2 h3 h4 =>
    refine ⟨[], .bad (hno h1) hc ?_ ?_ ?_, .nil⟩
    · intro j' h0 hj'
      rw [← viable]
      obtain ⟨t, ht⟩ := Option.isSome_iff_exists.mp h2
      have e : input.take j = input.take j' ++ (input.take j).drop j' := by
        have := (List.take_append_drop j' (input.take j)).symm
        rwa [List.take_take, Nat.min_eq_left hj'] at this
      rw [e] at ht
      obtain ⟨u, hu⟩ := walk_prefix ht
      rw [hu]; rfl
    · rw [← viable, h3]; simp
    · rw [← blank_iff]; exact h4

/-- The type-level lexer computes the cut read piece by piece. -/
theorem Made.ptsLex (M : Made toks lx N acc al D s0) (P : PCombined toks N acc) {max : Nat} (hf : Fits max lx)
    {code : Char → Option Nat} {input : Str} (hlen : input.length ≤ max)
    (hcode : ∀ c ∈ input, code c = some c.toNat ∧ c.toNat ≤ 255) :
    ∃ out er, MunchErr (PToken al toks) (PViable al toks) 0 input out er ∧
      Ts.lex max code (LexGen.Tables.new lx) (lexFuel input) input = tsLexOut toks out er := by
  obtain ⟨st, e, out, h1, h2, h3, _⟩ := cut_run lx input
  obtain ⟨out', h5, h6⟩ := M.pscan P h2
  refine ⟨out', _, h5, ?_⟩
  rw [M.lex_eq hf hlen hcode h1]
  cases e with
  | some c => rfl
  | none =>
    simp only [Option.map_none, tsLexOut, h3]
    congr 2
    have hw := munchErr_where h5
    clear h1 h2 h3 h5
    induction h6 with
    | nil => rfl
    | cons hs _ ih =>
      simp only [List.map_cons, List.cons.injEq]
      exact ⟨M.tokTs hlen hs (hw _ List.mem_cons_self), ih fun p hp => hw p (List.mem_cons_of_mem _ hp)⟩

end Lex
end Verif
