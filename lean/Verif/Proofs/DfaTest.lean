import Verif.Proofs.DfaWalk
import Verif.Proofs.Combine

/-! `DFA::test`, and facts shared by the DFA and lexer properties. -/

namespace Verif
open Spec

theorem Lex.Combined.base {toks N m acc} (h : Lex.Combined toks N m acc) : N.Base :=
  ⟨h.wf, h.start, h.bound, h.into⟩

namespace Dfa

/-- Follow the edges of the DFA, as the lexer does. -/
def walk (d : Dfa) : Nat → List Char → Option Nat
  | s, [] => some s
  | s, c :: cs => match d.findEdge s c with
    | some e => walk d e.dst cs
    | none => none

theorem walk_snoc (d : Dfa) : ∀ (w : List Char) (s : Nat) (c : Char),
    d.walk s (w ++ [c]) = (d.walk s w).bind fun t => (d.findEdge t c).map DEdge.dst
  | [], s, c => by
    simp only [List.nil_append, walk, Option.bind_some]
    cases d.findEdge s c <;> rfl
  | a :: w, s, c => by
    simp only [List.cons_append, walk]
    cases h : d.findEdge s a with
    | none => rfl
    | some e => exact walk_snoc d w e.dst c

variable {n : Nfa} {d : Dfa} {al : List Match} {D : List (List Nat)} {s0 : List Nat}

theorem Built.walk_sub (B : Built n d al D s0) : ∀ (w v : List Char) (s t : Nat),
    SubReach n D s v → d.walk s w = some t → SubReach n D t (v ++ w)
  | [], v, s, t, h, hw => by simp only [walk, Option.some.injEq] at hw; subst hw; simpa using h
  | c :: w, v, s, t, h, hw => by
    simp only [walk] at hw
    cases he : d.findEdge s c with
    | none => simp [he] at hw
    | some e =>
      rw [he] at hw
      simpa using B.walk_sub w (v ++ [c]) e.dst t (B.step_sub h he) hw

theorem Built.walk_eq (B : Built n d al D s0) (hd : Uniform n al) :
    ∀ (w v : List Char) (s t : Nat),
    EqReach n D s v → d.walk s w = some t → EqReach n D t (v ++ w)
  | [], v, s, t, h, hw => by simp only [walk, Option.some.injEq] at hw; subst hw; simpa using h
  | c :: w, v, s, t, h, hw => by
    simp only [walk] at hw
    cases he : d.findEdge s c with
    | none => simp [he] at hw
    | some e =>
      rw [he] at hw
      simpa using B.walk_eq hd w (v ++ [c]) e.dst t (B.step_eq hd h he) hw

theorem path_prefix {es : List NEdge} {s t : Nat} {v w : List Char} (p : Path es s (v ++ w) t) :
    ∃ x, Path es s v x := by
  obtain ⟨x, p1, _⟩ := p.splitWord; exact ⟨x, p1⟩

theorem Built.walk_isSome (B : Built n d al D s0) (hd : Uniform n al) :
    ∀ (w v : List Char) (s : Nat), EqReach n D s v →
    (∃ x, Path n.edges 0 v x) →
    ((d.walk s w).isSome = true ↔ ∃ x, Path n.edges 0 (v ++ w) x)
  | [], v, s, h, hv => by simpa [walk] using hv
  | c :: w, v, s, h, hv => by
    simp only [walk]
    cases he : d.findEdge s c with
    | none =>
      have := B.step_none h he
      simp only [Option.isSome_none, Bool.false_eq_true, false_iff, not_exists]
      intro x hp
      obtain ⟨y, hy⟩ := path_prefix (v := v ++ [c]) (w := w) (by simpa using hp)
      exact this y hy
    | some e =>
      have := B.walk_isSome hd w (v ++ [c]) e.dst (B.step_eq hd h he) (B.step_ne h.sub he)
      simpa using this

/-- A walk over a non-empty string does not end in state 0. -/
theorem Built.walk_ne (B : Built n d al D s0) {w : List Char} {t : Nat} (hw : w ≠ [])
    (h : d.walk 0 w = some t) : t ≠ 0 := by
  rw [← List.dropLast_append_getLast hw, walk_snoc] at h
  cases h1 : d.walk 0 w.dropLast with
  | none => simp [h1] at h
  | some s =>
    rw [h1] at h
    simp only [Option.bind_some] at h
    obtain ⟨u, hu, _⟩ := B.walk_sub _ [] 0 s B.eqReach_nil.sub h1
    cases he : d.findEdge s (w.getLast hw) with
    | none => simp [he] at h
    | some e =>
      simp only [he, Option.map_some, Option.some.injEq] at h
      have := (B.edge hu he).2.2.2.2
      omega

theorem Built.simLoop_spec (B : Built n d al D s0) : ∀ (cs : List Char) (s k : Nat),
    (∀ t, d.walk s cs = some t → d.simLoop s k cs = (t, k + cs.length)) ∧
    (d.walk s cs = none → (d.simLoop s k cs).2 < k + cs.length)
  | [], s, k => by simp [walk, simLoop]
  | c :: cs, s, k => by
    have ih := B.simLoop_spec cs
    have le : ∀ (cs : List Char) (s k : Nat), (d.simLoop s k cs).2 ≤ k + cs.length := by
      intro cs
      induction cs with
      | nil => intro s k; simp [simLoop]
      | cons c cs ih =>
        intro s k
        simp only [simLoop]
        split
        · have := ih s k; simp only [List.length_cons]; omega
        · split
          · rename_i e _
            have := ih e.dst (k + 1); simp only [List.length_cons]; omega
          · simp
    simp only [walk, simLoop]
    cases hst : (d.states[s]?).bind id with
    | none =>
      have h0 := (B.spec.hasFirst s).mpr hst
      have : d.findEdge s c = none := by simp [findEdge, h0]
      rw [this]
      have := le cs s k
      simp only [List.length_cons]
      refine ⟨by simp, fun _ => by omega⟩
    | some i =>
      cases he : d.findEdge s c with
      | none => simp
      | some e =>
        simp only
        obtain ⟨h1, h2⟩ := ih e.dst (k + 1)
        refine ⟨fun t ht => ?_, fun hn => ?_⟩
        · rw [h1 t ht]; simp; omega
        · have := h2 hn; simp only [List.length_cons]; omega

theorem utf8Size_pos (c : Char) : 1 ≤ c.utf8Size := Char.utf8Size_pos c

theorem utf8Size_ascii (c : Char) : c.utf8Size = 1 ↔ c.toNat < 128 := by
  rw [Char.utf8Size_eq_one_iff]
  show c.val ≤ 127 ↔ c.val.toNat < 128
  rw [UInt32.le_iff_toNat_le]
  show c.val.toNat ≤ 127 ↔ _
  omega

theorem byteLen_ge : ∀ s : Str, s.length ≤ byteLen s
  | [] => by simp [byteLen]
  | c :: s => by
    have := byteLen_ge s
    have := utf8Size_pos c
    simp only [byteLen, List.map_cons, List.sum_cons, List.length_cons] at *
    omega

theorem byteLen_ascii : ∀ s : Str, byteLen s = s.length ↔ ∀ c ∈ s, c.toNat < 128
  | [] => by simp [byteLen]
  | c :: s => by
    have h1 := byteLen_ge s
    have h2 := utf8Size_pos c
    have ih := byteLen_ascii s
    simp only [List.mem_cons, forall_eq_or_imp, ← utf8Size_ascii c, ← ih]
    simp only [byteLen, List.map_cons, List.sum_cons, List.length_cons] at *
    omega

theorem Built.test_iff (B : Built n d al D s0) (s : Str) :
    d.test s = true ↔ s ≠ [] ∧ (∀ c ∈ s, c.toNat < 128) ∧ (d.walk 0 s).isSome = true := by
  have hge := byteLen_ge s
  obtain ⟨h1, h2⟩ := B.simLoop_spec s 0 0
  unfold test simulate
  cases hw : d.walk 0 s with
  | none =>
    have h3 := h2 hw
    generalize hq : d.simLoop 0 0 s = q at *
    obtain ⟨st, k⟩ := q
    simp only at *
    split
    · rename_i k' hk'
      split at hk'
      · cases hk'
        simp; omega
      · cases hk'
    · simp
  | some t =>
    rw [h1 t hw]
    simp only [Nat.zero_add, Option.isSome_some, and_true]
    rw [B.spec.map t]
    by_cases hs : s = []
    · subst hs
      simp only [walk, Option.some.injEq] at hw
      subst hw
      simp
    · have ht := B.walk_ne hs hw
      obtain ⟨u, hu, _⟩ := B.walk_sub s [] 0 t B.eqReach_nil.sub hw
      rw [if_neg ht, hu]
      simp only [Option.isSome_some, if_true, beq_iff_eq, ne_eq, hs, not_false_eq_true, true_and]
      rw [← byteLen_ascii]; exact eq_comm

end Dfa
end Verif
