import Verif.Proofs.TsLexRun
import Verif.Proofs.LexBytes

/-! The two lexers on every supported text, ASCII or not. -/

namespace Verif
open Spec

namespace Lex
variable {toks : List (TokenDef × Hir)} {lx : Lex} {N : Nfa} {acc : Nat → Nat} {al : List Match}
  {D : List (List Nat)} {s0 : List Nat}

theorem longestAcc_unique {input w w' : List Char} {a a' : Nat} (h : LongestAcc lx input w a)
    (h' : LongestAcc lx input w' a') : w = w' ∧ a = a' := by
  obtain ⟨h1, ⟨r, h2⟩, h3⟩ := h
  obtain ⟨h1', ⟨r', h2'⟩, h3'⟩ := h'
  have hl : w.length = w'.length := by
    rcases Nat.lt_trichotomy w.length w'.length with hlt | he | hlt
    · exact absurd h1' (h3 _ _ ⟨_, h2'⟩ hlt)
    · exact he
    · exact absurd h1 (h3' _ _ ⟨_, h2⟩ hlt)
  have hw : w = w' := (List.append_inj (h2.symm.trans h2') hl).1
  subst hw
  obtain ⟨_, t, ht, ha⟩ := h1
  obtain ⟨_, t', ht', ha'⟩ := h1'
  rw [ht] at ht'
  cases ht'
  exact ⟨rfl, Option.some.inj (ha.symm.trans ha')⟩

theorem not_longest_ws {c : Char} {rest w : List Char} {a : Nat} (hf : lx.dfa.findEdge 0 c = none)
    (h : LongestAcc lx (c :: rest) w a) : False := by
  obtain ⟨⟨hne, t, ht, _⟩, ⟨r, hr⟩, _⟩ := h
  cases w with
  | nil => exact hne rfl
  | cons d w =>
    simp only [List.cons_append, List.cons.injEq] at hr
    obtain ⟨rfl, _⟩ := hr
    simp [Dfa.walk, hf] at ht

/-- The loop has one result. -/
theorem run_unique {k input out dr} (h : Run lx k input out dr) : ∀ {out' dr'}, Run lx k input out' dr' →
    out = out' ∧ dr = dr' := by
  induction h with
  | done =>
    intro out' dr' h'
    cases h' with
    | done => exact ⟨rfl, rfl⟩
    | tok h1 h2 => exact absurd h1.1.1 (by have := (List.append_eq_nil_iff.mp h2.symm).1; simp [this])
    | tokEnd h1 h2 => exact absurd h1.1.1 (by have := (List.append_eq_nil_iff.mp h2.symm).1; simp [this])
  | ws hw hf _ ih =>
    intro out' dr' h'
    cases h' with
    | ws _ _ h => exact ih h
    | tok h1 => exact (not_longest_ws hf h1).elim
    | tokEnd h1 => exact (not_longest_ws hf h1).elim
    | stop _ h2 => exact absurd ⟨hw, hf⟩ h2
  | tok h1 h2 h3 _ ih =>
    intro out' dr' h'
    cases h' with
    | done => exact absurd h1.1.1 (by have := (List.append_eq_nil_iff.mp h2.symm).1; simp [this])
    | ws _ hf _ => exact (not_longest_ws hf h1).elim
    | tok g1 g2 _ g =>
      obtain ⟨rfl, rfl⟩ := longestAcc_unique h1 g1
      obtain rfl := List.append_cancel_left (h2.symm.trans g2)
      obtain ⟨rfl, rfl⟩ := ih g
      exact ⟨rfl, rfl⟩
    | tokEnd _ _ g => rw [h3] at g; cases g
    | stop g _ => exact absurd h1.1 (g _ _ ⟨_, h2⟩)
  | tokEnd h1 h2 h3 =>
    intro out' dr' h'
    cases h' with
    | done => exact absurd h1.1.1 (by have := (List.append_eq_nil_iff.mp h2.symm).1; simp [this])
    | ws _ hf _ => exact (not_longest_ws hf h1).elim
    | tok _ _ g _ => rw [g] at h3; cases h3
    | tokEnd g1 g2 _ =>
      obtain ⟨rfl, rfl⟩ := longestAcc_unique h1 g1
      obtain rfl := List.append_cancel_left (h2.symm.trans g2)
      exact ⟨rfl, rfl⟩
    | stop g _ => exact absurd h1.1 (g _ _ ⟨_, h2⟩)
  | stop h1 h2 =>
    intro out' dr' h'
    cases h' with
    | ws hw hf _ => exact absurd ⟨hw, hf⟩ h2
    | tok g1 g2 => exact absurd g1.1 (h1 _ _ ⟨_, g2⟩)
    | tokEnd g1 g2 => exact absurd g1.1 (h1 _ _ ⟨_, g2⟩)
    | stop => exact ⟨rfl, rfl⟩

theorem walk_take {d : Dfa} {s : Nat} {w : List Char} (h : (d.walk s w).isSome = true) (j : Nat) :
    (d.walk s (w.take j)).isSome = true := by
  induction w generalizing s j with
  | nil => simpa using h
  | cons c w ih =>
    cases j with
    | zero => simp [Dfa.walk]
    | succ j =>
      simp only [Dfa.walk, List.take_succ_cons] at h ⊢
      cases he : d.findEdge s c with
      | none => simp [he] at h
      | some e => rw [he] at h; exact ih h j

/-- The loop with the error report is the loop of the Rust lexer, and its pieces are matched by tokens. -/
theorem Made.piecesE (M : Made toks lx N acc al D s0) (full : Str) {k input out er}
    (h : RunE lx k input out er) : ∃ out' cut dr out1, Pieces toks k input out' dr ∧ List.Forall₂ (Same lx acc) out out' ∧
      input = cut ++ dr ∧ Run lx k input out1 dr ∧ out1.mapM (lx.piece full) = out'.mapM (expected toks full) ∧
      ∀ i c, er = some (i, c) → k + cut.length ≤ i ∧ input[i - k]? = some c := by
  induction h with
  | done => exact ⟨[], [], [], [], .stop, .nil, rfl, .done, rfl, by simp⟩
  | @ws k c rest out er h1 hf _ ih =>
    obtain ⟨out', cut, dr, out1, g1, g2, g3, g4, g5, g6⟩ := ih
    refine ⟨out', c :: cut, dr, out1, .blank (blank_iff.mp h1) g1, g2, by rw [g3]; rfl, .ws h1 hf g4, g5, fun i d hi => ?_⟩
    obtain ⟨e1, e2⟩ := g6 i d hi
    refine ⟨by simp only [List.length_cons]; omega, ?_⟩
    rw [show i - k = (i - (k + 1)) + 1 by omega, List.getElem?_cons_succ]
    exact e2
  | @tok k input w s a rest out er h1 hw ha h2 h5 _ ih =>
    obtain ⟨out', cut, dr, out1, g1, g2, g3, g4, g5, g6⟩ := ih
    obtain ⟨i, q, hi, rfl, hm⟩ := M.acc_sound h1.1
    refine ⟨(_, i, _) :: out', w ++ cut, dr, (k, w, acc i) :: out1, by rw [h2]; exact Pieces.tok h1.1.1 hi hm g1,
      .cons ⟨rfl, rfl, ha, M.walk_lt M.bound.2 hw⟩ g2, by rw [h2, g3]; simp, .tok h1 h2 h5 g4, ?_, fun j d hj => ?_⟩
    · simp only [List.mapM_cons, M.piece hi h1.1.1, g5]
    · obtain ⟨e1, e2⟩ := g6 j d hj
      refine ⟨by simp only [List.length_append]; omega, ?_⟩
      rw [h2, List.getElem?_append_right (by omega), show j - k - w.length = j - (k + w.length) by omega]
      exact e2
  | @tokEnd k input w s a rest h1 hw ha h2 h5 =>
    obtain ⟨i, q, hi, rfl, hm⟩ := M.acc_sound h1.1
    refine ⟨[(_, i, _)], w, rest, [(k, w, acc i)], by rw [h2]; exact Pieces.tok h1.1.1 hi hm .stop,
      .cons ⟨rfl, rfl, ha, M.walk_lt M.bound.2 hw⟩ .nil, h2, .tokEnd h1 h2 h5, ?_, by simp⟩
    simp only [List.mapM_cons, M.piece hi h1.1.1, List.mapM_nil]
  | @cut k input h0 h1 h2 =>
    refine ⟨[], [], input, [], .stop, .nil, rfl, ?_, rfl, by simp⟩
    cases input with
    | nil => exact absurd rfl h0
    | cons c rest =>
      refine .stop h1 fun ⟨_, hf⟩ => ?_
      simp [Dfa.walk, hf] at h2
  | @bad k input j c h1 hc h2 h3 h4 =>
    refine ⟨[], [], input, [], .stop, .nil, rfl, ?_, rfl, ?_⟩
    · cases input with
      | nil => simp at hc
      | cons d rest =>
        refine .stop h1 fun ⟨hw, hf⟩ => ?_
        cases j with
        | zero => simp only [List.getElem?_cons_zero, Option.some.injEq] at hc; exact h4 ⟨rfl, hc ▸ hw⟩
        | succ j => simp [Dfa.walk, hf] at h2
    · rintro i d hi
      cases hi
      exact ⟨by simp, by rw [Nat.add_sub_cancel_left]; exact hc⟩

/-- Where the Rust loop stops, when it does not panic. -/
theorem lexLoop_forward (M : Made toks lx N acc al D s0) {input : Str} : ∀ (fuel : Nat) (st : CState) (l l' : LState),
    CInv lx input st → l.state = st.state → l.start = st.start → l.forward = st.forward →
    l.last = (st.last.bind fun p => (lx.acceptOf p.2).map fun a => (p.1, a)) →
    lexLoop lx input fuel l = .ok l' → ∃ st' e, cutLoop lx input fuel st = some (st', e) ∧ l'.forward = st'.forward := by
  intro fuel
  induction fuel with
  | zero =>
    intro st l l' _ h1 h2 h3 h4 hl
    unfold Lex.lexLoop at hl
    unfold cutLoop
    rw [h3] at hl
    cases hc : input[st.forward]? with
    | none => simp only [hc, Except.ok.injEq] at hl; subst hl; exact ⟨st, none, rfl, h3⟩
    | some c => simp [hc] at hl
  | succ fuel ih =>
    rintro st ⟨lt, _, _, _, _⟩ l' h h1 h2 h3 h4 hl
    simp only at h1 h2 h3 h4
    subst h1 h2 h3 h4
    rw [cutLoop_step]
    rw [lexLoop_step] at hl
    cases hc : input[st.forward]? with
    | none => simp only [hc, Except.ok.injEq] at hl; subst hl; exact ⟨st, none, rfl, rfl⟩
    | some c =>
      simp only [hc] at hl ⊢
      cases he : lx.dfa.findEdge st.state c with
      | some e =>
        simp only [he] at hl ⊢
        refine ih _ _ l' (h.edge M.bound.1 hc he) rfl rfl rfl ?_ hl
        cases hq : lx.acceptOf e.dst <;> simp [hq]
      | none =>
        simp only [he] at hl ⊢
        cases hs : st.last with
        | some q =>
          obtain ⟨li, ls⟩ := q
          obtain ⟨g1, g2, g3, g4⟩ := h.last li ls hs
          obtain ⟨a, ha'⟩ := Option.isSome_iff_exists.mp g4
          simp only [hs, Option.bind_some, ha', Option.map_some] at hl
          cases hk : lx.makeTok input st.start li a with
          | error e => simp [hk, bind, Except.bind] at hl
          | ok t =>
            simp only [hk, bind, Except.bind] at hl
            exact ih _ _ l' (h.tok M.bound.2 hs) rfl rfl rfl rfl hl
        | none =>
          simp only [hs, Option.bind_none] at hl
          simp only
          split at hl
          next hw =>
            rw [if_pos hw]
            have hw' := h.ws hc hs
            rw [hs] at hw'
            exact ih _ _ l' hw' rfl rfl rfl rfl hl
          next hw =>
            rw [if_neg hw]
            cases hl
            exact ⟨st, some c, rfl, rfl⟩

/-- The two lexers on every supported text. -/
theorem Made.agreeAll (M : Made toks lx N acc al D s0) {max : Nat} (hf : Fits max lx)
    {code : Char → Option Nat} {input : Str} (hlen : input.length ≤ max)
    (hcode : ∀ c ∈ input, code c = some c.toNat ∧ c.toNat ≤ 255) :
    ∃ out cut dr, Pieces toks 0 input out dr ∧ input = cut ++ dr ∧
      (∀ ts, lx.lex input = .ok ts ↔ List.Forall₂ (Carries toks input) out ts) ∧
      ((Ts.lex max code (LexGen.Tables.new lx) (lexFuel input) input =
          .tokens (out.map (fun p => tsToken (tokenOf toks p)) ++ [some ⟨"EOF".toList, none⟩]) ∧
        ∀ st, lx.lexLoop input (lexFuel input) ⟨[], 0, 0, 0, none⟩ = .ok st → st.forward = input.length) ∨
       ∃ i c, cut.length ≤ i ∧ input[i]? = some c ∧
        Ts.lex max code (LexGen.Tables.new lx) (lexFuel input) input = .invalidSymbol c (some i) ∧
        ∀ st, lx.lexLoop input (lexFuel input) ⟨[], 0, 0, 0, none⟩ = .ok st → st.forward = i) := by
  obtain ⟨st, e, out, h1, h2, h3, _⟩ := cut_run lx input
  obtain ⟨out', cut, dr, out1, g1, g2, g3, g4, g5, g6⟩ := M.piecesE input h2
  have h0 : CInv lx input ⟨[], 0, 0, 0, none⟩ := ⟨by simp, by simp, M.bound.2, by simp, by simp⟩
  have hI := M.cutLoop_inv _ _ h0 h1
  have hfw : ∀ l, lx.lexLoop input (lexFuel input) ⟨[], 0, 0, 0, none⟩ = .ok l → l.forward = st.forward := by
    intro l hl
    obtain ⟨st', e', e1, e2⟩ := lexLoop_forward M _ _ _ _ h0 rfl rfl rfl rfl hl
    rw [h1] at e1
    cases e1
    exact e2
  refine ⟨out', cut, dr, g1, g3, fun ts => ?_, ?_⟩
  · obtain ⟨out2, dr2, k1, k2⟩ := lex_run lx input
    obtain ⟨rfl, rfl⟩ := run_unique g4 k1
    rw [k2, g5, mapM_iff]
    simp only [expected_iff]
  · have hl := M.lex_eq hf hlen hcode h1
    cases e with
    | some c =>
      refine .inr ⟨st.forward, c, ?_, ?_, hl, hfw⟩
      · simpa using (g6 _ _ rfl).1
      · simpa using (g6 _ _ rfl).2
    | none =>
      refine .inl ⟨?_, fun l h => (hfw l h).trans hI.2⟩
      rw [hl, h3]
      simp only
      congr 2
      have hw := pieces_where g1
      clear g1 g4 g5 g6 h2 h3
      induction g2 with
      | nil => rfl
      | cons hs _ ih =>
        simp only [List.map_cons, List.cons.injEq]
        refine ⟨M.tokTs hlen hs ?_, ih fun p hp => hw p (List.mem_cons_of_mem _ hp)⟩
        obtain ⟨pre, post, e1, e2, e3, q, e4, _⟩ := hw _ List.mem_cons_self
        exact ⟨pre, post, e1, e2, e3, q, e4⟩

end Lex
end Verif
