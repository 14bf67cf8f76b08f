import Verif.Model.TsLex
import Verif.Proofs.TsUtilOk
import Verif.Proofs.LexSpec

/-! The generated lexer tables. -/

namespace Verif
open Spec

theorem foldl_minsert_same {ν : Type} {k : Nat} {v : ν} : ∀ (l : List (Nat × ν)) (m : List (Nat × ν)),
    (∀ e ∈ l, e.1 = k → e.2 = v) →
    ((∃ e ∈ l, e.1 = k) → mget k (l.foldl (fun m e => minsert e.1 e.2 m) m) = some v) ∧
    ((¬ ∃ e ∈ l, e.1 = k) → mget k (l.foldl (fun m e => minsert e.1 e.2 m) m) = mget k m)
  | [], m, _ => by simp
  | e :: l, m, h => by
    have ih := foldl_minsert_same l (minsert e.1 e.2 m) (fun e' he' => h e' (by simp [he']))
    simp only [List.foldl_cons]
    by_cases hl : ∃ e ∈ l, e.1 = k
    · exact ⟨fun _ => ih.1 hl, fun hn => absurd hl (fun ⟨e', h1, h2⟩ => hn ⟨e', by simp [h1], h2⟩)⟩
    · rw [ih.2 hl, mget_minsert]
      by_cases hk : k = e.1
      · rw [if_pos hk, h e (by simp) hk.symm]
        exact ⟨fun _ => rfl, fun hn => absurd ⟨e, by simp, hk.symm⟩ hn⟩
      · rw [if_neg hk]
        refine ⟨?_, fun _ => rfl⟩
        rintro ⟨e', he', hk'⟩
        rcases List.mem_cons.mp he' with rfl | he'
        · exact absurd hk'.symm hk
        · exact absurd ⟨e', he', hk'⟩ hl

namespace Lex

variable {toks : List (TokenDef × Hir)} {lx : Lex} {N : Nfa} {acc : Nat → Nat} {al : List Match}
  {D : List (List Nat)} {s0 : List Nat}

/-- A state is among the accepting ones of some DFA state. -/
def Hit (lx : Lex) (x : Nat) : Prop :=
  ∃ s, s < lx.dfa.states.length ∧ ∃ l, mget s lx.acceptingDfaToNfa = some l ∧ x ∈ l

theorem mem_tokenEntries {e : Nat × Str × Bool} : e ∈ LexGen.tokenEntries lx ↔
    ∃ d, (e.1, d) ∈ lx.tokens ∧ e.2 = (d.name, d.withVal) ∧ lx.Hit e.1 := by
  simp only [LexGen.tokenEntries, List.mem_flatMap, List.mem_filterMap, List.mem_range]
  constructor
  · rintro ⟨kv, hkv, idx, hidx, h⟩
    cases hm : mget idx lx.acceptingDfaToNfa with
    | none => simp [hm] at h
    | some l =>
      simp only [hm] at h
      split at h
      · rename_i hk
        cases h
        exact ⟨kv.2, hkv, rfl, idx, hidx, l, hm, hk⟩
      · cases h
  · rintro ⟨d, h1, h2, s, hs, l, hl, hx⟩
    refine ⟨(e.1, d), h1, s, hs, ?_⟩
    simp only [hl, if_pos hx, ← h2]

theorem Made.mget_tokens (M : Made toks lx N acc al D s0) {i : Nat} {q : TokenDef × Hir}
    (hi : toks[i]? = some q) (hh : lx.Hit (acc i)) :
    mget (acc i) (LexGen.Tables.new lx).tokens = some (q.1.name, q.1.withVal) := by
  refine (foldl_minsert_same (k := acc i) (v := (q.1.name, q.1.withVal)) _ [] ?_).1 ?_
  · intro e he hk
    obtain ⟨d, h1, h2, _⟩ := mem_tokenEntries.mp he
    rw [h2]
    rw [hk, M.comb.tokens] at h1
    simp only [List.mem_map, List.mem_range, Prod.mk.injEq] at h1
    obtain ⟨j, hj, h3, rfl⟩ := h1
    have hji := M.comb.inj hj ((List.getElem?_eq_some_iff.mp hi).1) h3
    subst hji
    simp [List.getD, hi]
  · refine ⟨(acc i, q.1.name, q.1.withVal), mem_tokenEntries.mpr ⟨q.1, ?_, rfl, hh⟩, rfl⟩
    exact mget_mem (M.comb.mget hi)

theorem Made.mget_tokens_none (M : Made toks lx N acc al D s0) {x : Nat} (hx : x ∉ N.acceptingStates) :
    mget x (LexGen.Tables.new lx).tokens = none := by
  refine (foldl_minsert_same (k := x) (v := ([], false)) _ [] ?_).2 ?_
  all_goals
    have : ∀ e ∈ LexGen.tokenEntries lx, e.1 ≠ x := by
      rintro e he rfl
      obtain ⟨d, h1, h2, _⟩ := mem_tokenEntries.mp he
      rw [M.comb.tokens] at h1
      simp only [List.mem_map, List.mem_range, Prod.mk.injEq] at h1
      obtain ⟨j, hj, h3, rfl⟩ := h1
      exact hx ((M.comb.accepting _).mpr ⟨j, hj, h3.symm⟩)
  · intro e he hk; exact absurd hk (this e he)
  · rintro ⟨e, he, hk⟩; exact this e he hk

theorem Made.hit (M : Made toks lx N acc al D s0) {t : Nat} {u : List Nat} (ht : t ≠ 0)
    (hu : D[t]? = some u) {x : Nat} (hx : x ∈ u) (ha : x ∈ N.acceptingStates) : lx.Hit x := by
  have hm : x ∈ u.filter fun x => decide (x ∈ N.acceptingStates) := by simp [hx, ha]
  refine ⟨t, by rw [M.built.spec.len]; exact (List.getElem?_eq_some_iff.mp hu).1,
    u.filter fun x => decide (x ∈ N.acceptingStates), ?_, hm⟩
  rw [M.accept, M.built.mget_accepting, if_neg ht, hu]
  simp only [Option.bind_some]
  revert hm
  cases u.filter (fun x => decide (x ∈ N.acceptingStates)) <;> simp

/-- The TypeScript lookup finds the token of the first accepting state. -/
theorem Made.getTokenDef (M : Made toks lx N acc al D s0) {t : Nat} (h : t < lx.dfa.states.length) :
    Ts.getTokenDef (LexGen.Tables.new lx) t =
      (lx.acceptOf t).bind fun a => (mget a lx.tokens).map fun d => (d.name, d.withVal) := by
  rw [M.built.spec.len] at h
  by_cases h0 : t = 0
  · subst h0
    have h1 : mget 0 (LexGen.Tables.new lx).dfaToNfa = none := by
      simp [LexGen.Tables.new, M.built.spec.map]
    have h2 : lx.acceptOf 0 = none := by
      simp [Lex.acceptOf, M.accept, M.built.mget_accepting]
    simp [Ts.getTokenDef, h1, h2]
  · obtain ⟨u, hu⟩ : ∃ u, D[t]? = some u := ⟨_, List.getElem?_eq_getElem h⟩
    have h1 : mget t (LexGen.Tables.new lx).dfaToNfa = some u := by
      simp [LexGen.Tables.new, M.built.spec.map, h0, hu]
    rw [M.acceptOf h0 hu]
    simp only [Ts.getTokenDef, h1]
    have hhit : ∀ x ∈ u, x ∈ N.acceptingStates → lx.Hit x := fun x hx ha => M.hit h0 hu hx ha
    clear h1 hu
    induction u with
    | nil => rfl
    | cons x u ih =>
      simp only [Ts.getTokenDefImpl, List.filter_cons]
      by_cases ha : x ∈ N.acceptingStates
      · obtain ⟨i, hi, rfl⟩ := (M.comb.accepting x).mp ha
        have hq : toks[i]? = some toks[i] := List.getElem?_eq_getElem hi
        simp only [ha, decide_true, if_true, List.head?_cons, Option.bind_some, M.comb.mget hq,
          M.mget_tokens hq (hhit _ (by simp) ha), Option.map_some]
      · simp only [ha, decide_false, M.mget_tokens_none ha]
        exact ih fun y hy => hhit y (by simp [hy])

theorem Made.stateIsAccepting (M : Made toks lx N acc al D s0) (t : Nat) :
    lx.dfa.stateIsAccepting t = (lx.acceptOf t).isSome := by
  unfold Dfa.stateIsAccepting
  by_cases h0 : t = 0
  · subst h0
    simp [Lex.acceptOf, M.accept, M.built.mget_accepting, M.built.spec.map]
  · cases hu : D[t]? with
    | none =>
      simp [Lex.acceptOf, M.accept, M.built.mget_accepting, M.built.spec.map, h0, hu]
    | some u =>
      rw [M.acceptOf h0 hu]
      simp only [M.built.spec.map, h0, if_false, hu, M.built.spec.accepting]
      clear hu
      induction u with
      | nil => rfl
      | cons x u ih =>
        simp only [List.any_cons, List.filter_cons]
        by_cases ha : x ∈ N.acceptingStates <;> simp_all

end Lex

namespace LexGen

theorem mget_charFold (k : Nat) : ∀ (l : List Nat) (m : List (Nat × Nat)),
    mget k (l.foldl addChar m) =
      match mget k m with
      | some v => some v
      | none => if k ∈ l ∧ k ∉ invisible then some (k % 256) else none
  | [], m => by cases h : mget k m <;> simp [h]
  | c :: l, m => by
    simp only [List.foldl_cons]
    rw [mget_charFold k l]
    unfold addChar
    by_cases hc : c ∈ invisible
    · rw [if_pos hc]
      cases h : mget k m with
      | some v => rfl
      | none =>
        simp only
        by_cases hk : k = c
        · subst hk; simp [hc]
        · simp [hk]
    · rw [if_neg hc]
      cases hm : mget c m with
      | some v =>
        simp only
        cases h : mget k m with
        | some v => rfl
        | none =>
          simp only
          have hk : k ≠ c := by rintro rfl; rw [hm] at h; cases h
          simp [hk]
      | none =>
        simp only
        rw [mget_minsert]
        by_cases hk : k = c
        · subst hk; simp [hm, hc]
        · simp [hk]

theorem mem_rangeChars (k : Nat) : k ∈ rangeChars ↔ k < 256 := by
  simp only [rangeChars, dotRanges, List.flatMap_cons, List.flatMap_nil, List.append_nil,
    List.mem_append, List.mem_map, List.mem_range'_1, List.mem_singleton]
  constructor
  · rintro ((⟨i, _, rfl⟩ | ⟨i, _, rfl⟩) | rfl)
    · exact Nat.mod_lt _ (by omega)
    · exact Nat.mod_lt _ (by omega)
    · decide
  · intro h
    left; right
    exact ⟨k + 256, by omega, by omega⟩

/-- The generated character table: the characters below 256 that are not
invisible, each with its own code. -/
theorem charCode_eq (c : Char) :
    charCode c = if c.toNat < 256 ∧ c.toNat ∉ invisible then some c.toNat else none := by
  unfold charCode charMap
  rw [mget_charFold]
  simp only [mget, mem_rangeChars]
  by_cases h : c.toNat < 256 ∧ c.toNat ∉ invisible
  · rw [if_pos h, if_pos h, Nat.mod_eq_of_lt h.1]
  · rw [if_neg h, if_neg h]

end LexGen
end Verif
