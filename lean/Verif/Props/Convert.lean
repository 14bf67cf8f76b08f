import Verif.Spec.Convert
import Verif.Proofs.TokensOk

/-! # Property C32: what `convert_tokens` does for every lexer and every tokens -/

namespace Verif.Props
open Verif Spec

theorem mget_fold_last {n : Str} {d : TokenDef} (l : List (Nat × TokenDef)) :
    mget n (l.foldl (fun m p => minsert p.2.name p.2 m) []) = some d ↔ LastNamed (l.map Prod.snd) n d := by
  induction l using List.reverseRecOn with
  | nil => simp [mget, LastNamed]
  | append_singleton l p ih =>
    rw [List.foldl_append, List.foldl_cons, List.foldl_nil, mget_minsert]
    by_cases h : n = p.2.name
    · rw [if_pos h]
      constructor
      · intro e
        cases e
        exact ⟨h.symm, l.map Prod.snd, [], by simp, by simp⟩
      · rintro ⟨h1, b, a, h2, h3⟩
        rw [List.map_append, List.map_singleton] at h2
        rcases List.eq_nil_or_concat a with rfl | ⟨a', x, rfl⟩
        · exact congrArg some (by simpa using (List.append_inj_right' h2 rfl))
        · have h4 : l.map Prod.snd ++ [p.2] = (b ++ d :: a') ++ [x] := by simpa using h2
          have h5 : p.2 = x := by simpa using List.append_inj_right' h4 rfl
          exact absurd (h.symm ▸ congrArg TokenDef.name h5.symm) (h3 x (by simp))
    · rw [if_neg h, ih]
      constructor
      · rintro ⟨h1, b, a, h2, h3⟩
        refine ⟨h1, b, a ++ [p.2], by simp [h2], fun e he => ?_⟩
        rcases List.mem_append.mp he with he | he
        · exact h3 e he
        · rw [List.mem_singleton.mp he]; exact fun e => h e.symm
      · rintro ⟨h1, b, a, h2, h3⟩
        rw [List.map_append, List.map_singleton] at h2
        rcases List.eq_nil_or_concat a with rfl | ⟨a', x, rfl⟩
        · have : p.2 = d := by simpa using (List.append_inj_right' h2 rfl)
          exact absurd (this ▸ h1).symm h
        · have h4 : l.map Prod.snd ++ [p.2] = (b ++ d :: a') ++ [x] := by simpa using h2
          exact ⟨h1, b, a', List.append_inj_left' h4 rfl, fun e he => h3 e (by simp [he])⟩

/-- C32: tokens are converted exactly by the numbers of the last definitions with their names, and one
end marker follows. -/
theorem C32_exact (lx : Lex) (ts : List Token) (out : List (Token × Nat)) : lx.convertTokens ts = .ok out ↔
    ∃ ks, List.Forall₂ (fun (t : Token) k => ∃ d, LastNamed (lx.tokens.map Prod.snd) t.name d ∧ d.tokenIdx = some k) ts ks ∧
      out = ts.zip ks ++ [(⟨"EOF".toList, none⟩, 0)] := by
  have key : ∀ ts out, Lex.convertLoop lx.defMap ts = .ok out ↔
      ∃ ks, List.Forall₂ (fun (t : Token) k => ∃ d, LastNamed (lx.tokens.map Prod.snd) t.name d ∧ d.tokenIdx = some k) ts ks ∧
        out = ts.zip ks := by
    intro ts
    induction ts with
    | nil =>
      intro out
      simp only [Lex.convertLoop, pure, Except.pure, Except.ok.injEq, List.forall₂_nil_left_iff, exists_eq_left, List.zip_nil_right]
      exact eq_comm
    | cons t ts ih =>
      intro out
      unfold Lex.convertLoop Lex.tokenWithIdx
      cases hm : mget t.name lx.defMap with
      | none =>
        simp only [bind, Except.bind]
        refine ⟨fun h => (by cases h), ?_⟩
        rintro ⟨_, _ | ⟨⟨d, h1, h2⟩, _⟩, _⟩
        rw [show mget t.name lx.defMap = some d from (mget_fold_last lx.tokens).mpr h1] at hm
        cases hm
      | some d =>
        have hd := (mget_fold_last lx.tokens).mp hm
        have hu : ∀ d', LastNamed (lx.tokens.map Prod.snd) t.name d' → d' = d := fun d' h =>
          Option.some.inj (((mget_fold_last lx.tokens).mpr h).symm.trans hm)
        cases hi : d.tokenIdx with
        | none =>
          simp only [bind, Except.bind, hi]
          refine ⟨fun h => (by cases h), ?_⟩
          rintro ⟨_, _ | ⟨⟨d', h1, h2⟩, _⟩, _⟩
          rw [hu d' h1, hi] at h2; cases h2
        | some i =>
          cases hl : Lex.convertLoop lx.defMap ts with
          | error e =>
            simp only [bind, Except.bind, hi, hl]
            refine ⟨fun h => (by cases h), ?_⟩
            rintro ⟨_, _ | ⟨_, h2⟩, _⟩
            have := (ih _).mpr ⟨_, h2, rfl⟩
            rw [hl] at this; cases this
          | ok o =>
            obtain ⟨ks, h1, rfl⟩ := (ih o).mp hl
            simp only [bind, Except.bind, hi, hl, pure, Except.pure, Except.ok.injEq]
            constructor
            · rintro rfl
              exact ⟨i :: ks, .cons ⟨d, hd, hi⟩ h1, rfl⟩
            · rintro ⟨_, _ | ⟨⟨d', h2, h3⟩, h4⟩, rfl⟩
              rw [hu d' h2, hi] at h3; cases h3
              have := (ih _).mpr ⟨_, h4, rfl⟩
              rw [hl] at this
              rw [Except.ok.inj this]; rfl
  unfold Lex.convertTokens
  cases hl : Lex.convertLoop lx.defMap ts with
  | error e =>
    simp only [bind, Except.bind]
    refine ⟨fun h => (by cases h), ?_⟩
    rintro ⟨ks, h1, _⟩
    rw [(key ts _).mpr ⟨ks, h1, rfl⟩] at hl; cases hl
  | ok o =>
    obtain ⟨ks, h1, rfl⟩ := (key ts o).mp hl
    simp only [bind, Except.bind, pure, Except.pure, Except.ok.injEq]
    constructor
    · rintro rfl; exact ⟨ks, h1, rfl⟩
    · rintro ⟨ks', h2, rfl⟩
      have := (key ts _).mpr ⟨ks', h2, rfl⟩
      rw [hl] at this
      rw [Except.ok.inj this]; rfl

/-- C32: in every other case it panics: a token has a name without a definition, or the last definition
with its name has no number. -/
theorem C32_panics (lx : Lex) (ts : List Token) :
    (lx.convertTokens ts = .error .unwrapNone ∨ ∃ out, lx.convertTokens ts = .ok out) ∧
    (lx.convertTokens ts = .error .unwrapNone ↔
      ∃ t ∈ ts, ∀ d, LastNamed (lx.tokens.map Prod.snd) t.name d → d.tokenIdx = none) := by
  have h1 : lx.convertTokens ts = .error .unwrapNone ∨ ∃ out, lx.convertTokens ts = .ok out := by
    have : ∀ ts, Lex.convertLoop lx.defMap ts = .error .unwrapNone ∨ ∃ out, Lex.convertLoop lx.defMap ts = .ok out := by
      intro ts
      induction ts with
      | nil => exact .inr ⟨_, rfl⟩
      | cons t ts ih =>
        unfold Lex.convertLoop Lex.tokenWithIdx
        cases mget t.name lx.defMap with
        | none => exact .inl rfl
        | some d =>
          cases hi : d.tokenIdx with
          | none => left; simp [bind, Except.bind, hi]
          | some i =>
            rcases ih with h | ⟨o, h⟩
            · left; simp [bind, Except.bind, h, hi]
            · right; simp [bind, Except.bind, h, hi, pure, Except.pure]
    unfold Lex.convertTokens
    rcases this ts with h | ⟨o, h⟩
    · left; simp [bind, Except.bind, h]
    · right; simp [bind, Except.bind, h, pure, Except.pure]
  refine ⟨h1, ?_⟩
  constructor
  · intro h
    by_contra hn
    push Not at hn
    have : ∃ ks, List.Forall₂ (fun (t : Token) k => ∃ d, LastNamed (lx.tokens.map Prod.snd) t.name d ∧ d.tokenIdx = some k) ts ks := by
      clear h h1
      induction ts with
      | nil => exact ⟨[], .nil⟩
      | cons t ts ih =>
        obtain ⟨ks, hks⟩ := ih fun t ht => hn t (by simp [ht])
        obtain ⟨d, h1, h2⟩ := hn t (by simp)
        obtain ⟨k, hk⟩ := Option.ne_none_iff_exists'.mp h2
        exact ⟨k :: ks, .cons ⟨d, h1, hk⟩ hks⟩
    obtain ⟨ks, hks⟩ := this
    rw [(C32_exact lx ts _).mpr ⟨ks, hks, rfl⟩] at h
    cases h
  · rintro ⟨t, ht, hd⟩
    refine h1.resolve_right ?_
    rintro ⟨out, h⟩
    obtain ⟨ks, hks, e⟩ := (C32_exact lx ts out).mp h
    clear h h1 e
    induction hks with
    | nil => simp at ht
    | cons h _ ih =>
      rcases List.mem_cons.mp ht with rfl | ht
      · obtain ⟨d, h1, h2⟩ := h
        rw [hd d h1] at h2; cases h2
      · exact ih ht

-- C32: of two definitions with one name the later one counts; a definition without a number and a name
-- without a definition stop the program.
example : let lx : Lex := ⟨⟨[], [], [], []⟩, [(3, ⟨['a'], true, some 1⟩), (4, ⟨['a'], true, some 3⟩), (5, ⟨['b'], true, none⟩)], []⟩
    lx.convertTokens [⟨['a'], none⟩] = .ok [(⟨['a'], none⟩, 3), (⟨"EOF".toList, none⟩, 0)] ∧
    lx.convertTokens [⟨['b'], none⟩] = .error .unwrapNone ∧ lx.convertTokens [⟨['c'], none⟩] = .error .unwrapNone ∧
    LastNamed (lx.tokens.map Prod.snd) ['b'] ⟨['b'], true, none⟩ :=
  ⟨rfl, rfl, rfl, rfl, [⟨['a'], true, some 1⟩, ⟨['a'], true, some 3⟩], [], rfl, by simp⟩

end Verif.Props
