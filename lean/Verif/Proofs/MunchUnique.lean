import Verif.Proofs.PieceWalk

/-! `Munch` allows one result. -/

namespace Verif
open Spec

namespace Lex
variable {T : List Char → Nat → Prop} {V : List Char → Prop}

theorem longestToken_unique (hT : ∀ w i j, T w i → T w j → i = j) {input w v i j}
    (hw : LongestToken T input w i) (hv : LongestToken T input v j) : w = v ∧ i = j := by
  obtain ⟨_, ⟨r, hr⟩, h1, hmax⟩ := hw
  obtain ⟨_, ⟨s, hs⟩, h2, hmax'⟩ := hv
  have h3 : ¬ w.length < v.length := fun h => hmax v j ⟨s, hs⟩ h h2
  have h4 : ¬ v.length < w.length := fun h => hmax' w i ⟨r, hr⟩ h h1
  obtain ⟨rfl, _⟩ := List.append_inj (hr.symm.trans hs) (by omega)
  exact ⟨rfl, hT w i j h1 h2⟩

theorem longestToken_nil {w i} (h : LongestToken T [] w i) : False := by
  obtain ⟨hne, ⟨r, hr⟩, _⟩ := h
  exact hne (by simpa using (List.append_eq_nil_iff.mp hr.symm).1)

theorem longestToken_viable (hV : ∀ c w i, T (c :: w) i → V [c]) {c rest w i}
    (h : LongestToken T (c :: rest) w i) : V [c] := by
  obtain ⟨hne, ⟨r, hr⟩, h1, _⟩ := h
  cases w with
  | nil => exact absurd rfl hne
  | cons d w =>
    simp only [List.cons_append, List.cons.injEq] at hr
    exact hr.1 ▸ hV d w i h1

theorem longestToken_not_stop {input w i} (h : LongestToken T input w i)
    (hs : ∀ v i, v ≠ [] → (∃ r, input = v ++ r) → ¬ T v i) : False :=
  hs w i h.1 h.2.1 h.2.2.1

theorem munch_unique (hT : ∀ w i j, T w i → T w j → i = j) (hV : ∀ c w i, T (c :: w) i → V [c])
    {k input out dr} (h : Munch T V k input out dr) :
    ∀ {out' dr'}, Munch T V k input out' dr' → out' = out ∧ dr' = dr := by
  induction h with
  | done =>
    intro out' dr' h'
    cases h' with
    | done => exact ⟨rfl, rfl⟩
    | tok h1 => exact (longestToken_nil h1).elim
    | tokEnd h1 => exact (longestToken_nil h1).elim
  | blank h1 h2 _ ih =>
    intro out' dr' h'
    cases h' with
    | blank _ _ h => exact ih h
    | tok h1 => exact absurd (longestToken_viable hV h1) h2
    | tokEnd h1 => exact absurd (longestToken_viable hV h1) h2
    | stop _ h4 => exact absurd ⟨h1, h2⟩ h4
  | tok h1 h3 h4 _ ih =>
    intro out' dr' h'
    cases h' with
    | done => exact (longestToken_nil h1).elim
    | blank _ h6 => exact absurd (longestToken_viable hV h1) h6
    | tok g1 g3 _ g5 =>
      obtain ⟨rfl, rfl⟩ := longestToken_unique hT h1 g1
      have := List.append_cancel_left (h3.symm.trans g3)
      subst this
      obtain ⟨rfl, rfl⟩ := ih g5
      exact ⟨rfl, rfl⟩
    | tokEnd _ _ g4 => exact absurd g4 h4
    | stop g1 _ => exact (longestToken_not_stop h1 g1).elim
  | tokEnd h1 h3 h4 =>
    intro out' dr' h'
    cases h' with
    | done => exact (longestToken_nil h1).elim
    | blank _ h6 => exact absurd (longestToken_viable hV h1) h6
    | tok _ _ g4 _ => exact absurd h4 g4
    | tokEnd g1 g3 _ =>
      obtain ⟨rfl, rfl⟩ := longestToken_unique hT h1 g1
      have := List.append_cancel_left (h3.symm.trans g3)
      subst this
      exact ⟨rfl, rfl⟩
    | stop g1 _ => exact (longestToken_not_stop h1 g1).elim
  | stop h1 h2 =>
    intro out' dr' h'
    cases h' with
    | blank g1 g2 _ => exact absurd ⟨g1, g2⟩ h2
    | tok g1 => exact (longestToken_not_stop g1 h1).elim
    | tokEnd g1 => exact (longestToken_not_stop g1 h1).elim
    | stop _ _ => exact ⟨rfl, rfl⟩

/-- The cut read piece by piece is unique. -/
theorem pmunch_unique {al toks k input out dr} (h : Munch (PToken al toks) (PViable al toks) k input out dr)
    {out' dr'} (h' : Munch (PToken al toks) (PViable al toks) k input out' dr') : out' = out ∧ dr' = dr :=
  munch_unique (T := PToken al toks) (V := PViable al toks) (fun _ _ _ => pToken_unique)
    (fun c w _ h => by
      obtain ⟨as, hr, _⟩ := h
      exact reads_append (w := [c]) (v := w) (as := as) hr) h h'

/-- A token matches, in the ordinary sense, the text it is taken for. -/
theorem Made.ptoken_sound {toks lx N acc al D s0} (M : Made toks lx N acc al D s0) (P : PCombined toks N acc) (w : List Char) (i : Nat)
    (hw : w ≠ []) (h : PToken al toks w i) : ∃ q, toks[i]? = some q ∧ Matches q.2 w := by
  obtain ⟨j, q, h1, h2, h3⟩ := M.acc_sound ((M.acc_iff P hw).mpr ⟨i, rfl, h⟩)
  have hi : i < toks.length := by
    obtain ⟨_, _, ⟨p, hp, _⟩, _⟩ := h
    exact (List.getElem?_eq_some_iff.mp hp).1
  have := M.comb.inj hi (List.getElem?_eq_some_iff.mp h1).1 h2
  subst this
  exact ⟨q, h1, h3⟩

theorem munch_pieces {al toks k input out dr} {V : List Char → Prop} (hs : ∀ w i, w ≠ [] → PToken al toks w i →
      ∃ q, toks[i]? = some q ∧ Matches q.2 w) (h : Munch (PToken al toks) V k input out dr) :
    Pieces toks k input out dr := by
  induction h with
  | done => exact .stop
  | blank h1 _ _ ih => exact .blank h1 ih
  | tok h1 h3 _ _ ih =>
    obtain ⟨q, hq, hm⟩ := hs _ _ h1.1 h1.2.2.1
    exact h3 ▸ .tok h1.1 hq hm ih
  | tokEnd h1 h3 _ =>
    obtain ⟨q, hq, hm⟩ := hs _ _ h1.1 h1.2.2.1
    exact h3 ▸ .tok h1.1 hq hm .stop
  | stop _ _ => exact .stop

end Lex
end Verif
