import Verif.Proofs.LexSpec

/-! Blanks and values for every token list and every input. -/

namespace Verif
open Spec

namespace Dfa
variable {n : Nfa} {d : Dfa} {al : List Match} {D : List (List Nat)} {s0 : List Nat}

/-- No edge means no way on, whatever the alphabet. -/
theorem Built.step_none' (B : Built n d al D s0) {t w c}
    (h : EqReach n D t w) (he : d.findEdge t c = none) : ∀ x, ¬ Path n.edges 0 (w ++ [c]) x := by
  intro x hp
  obtain ⟨u, h1, h2⟩ := h
  obtain ⟨s, hps, e, hee, m, rfl, hm, hmc, hr⟩ := Nfa.path_snoc.mp hp
  obtain ⟨a, ha, hc, hw⟩ := B.atom ⟨e, hee, hm⟩ (Nfa.matchesC_iff.mp hmc)
  have hx : x ∈ tr n u a := by
    refine ((tr_spec B.base u a).2.2 x).mpr ⟨e, hee, (h2 _).mpr hps, m, hm, ?_, ?_, hr⟩
    · exact hw _ (by have := B.nonempty a ha; unfold Mem; omega)
    · exact hw _ (by have := B.nonempty a ha; unfold Mem; omega)
  obtain ⟨de, hde, h3, h4, h5⟩ := forall₂_mem_left (B.spec.iter t u h1) (a := a) (by
    rw [List.mem_filter]
    refine ⟨ha, ?_⟩
    have : tr n u a ≠ [] := List.ne_nil_of_mem hx
    simpa using this)
  have := List.find?_eq_none.mp he de hde
  rw [h4] at this
  exact this (Nfa.matchesC_iff.mpr hc)

end Dfa

namespace Lex
variable {toks : List (TokenDef × Hir)} {lx : Lex} {N : Nfa} {acc : Nat → Nat} {al : List Match}
  {D : List (List Nat)} {s0 : List Nat}

theorem Made.viable_of_path (M : Made toks lx N acc al D s0) (hv : ∀ p ∈ toks, NonVoid p.2) {p : List Char}
    (hp : p ≠ []) {x : Nat} (hx : Path N.edges 0 p x) : Viable toks p := by
  have hne : toks ≠ [] := by
    rintro rfl
    obtain ⟨e, he, m, hm⟩ := path_label hx hp
    obtain ⟨q, hq, _⟩ := (M.comb.labels m).mp ⟨e, he, hm⟩
    simp at hq
  obtain ⟨v, i, hi, hpath⟩ := M.comb.co hv hne p x hx
  exact ⟨v, toks[i], List.getElem_mem hi,
    (M.comb.lang i toks[i].1 toks[i].2 (List.getElem?_eq_getElem hi) _).mp (hx.trans hpath)⟩

/-- Whether the lexer can start with a character, whatever the alphabet. -/
theorem Made.start_iff (M : Made toks lx N acc al D s0) (hv : ∀ p ∈ toks, NonVoid p.2) {c : Char} :
    lx.dfa.findEdge 0 c = none ↔ ¬ Viable toks [c] := by
  constructor
  · rintro hf ⟨v, q, hq, hm⟩
    obtain ⟨i, hi, rfl⟩ := List.mem_iff_getElem.mp hq
    obtain ⟨x, hx⟩ := Dfa.path_prefix
      ((M.comb.lang i toks[i].1 toks[i].2 (List.getElem?_eq_getElem hi) _).mpr hm)
    exact M.built.step_none' M.built.eqReach_nil hf x hx
  · intro hn
    cases hf : lx.dfa.findEdge 0 c with
    | none => rfl
    | some e =>
      obtain ⟨x, hx⟩ := M.built.step_ne M.built.eqReach_nil.sub hf
      exact absurd (M.viable_of_path hv (by simp) hx) hn

/-- A walk that does not get stuck is on the way to a match. -/
theorem Made.walk_viable (M : Made toks lx N acc al D s0) (hv : ∀ p ∈ toks, NonVoid p.2) {p : List Char}
    (hp : p ≠ []) (hw : (lx.dfa.walk 0 p).isSome = true) : Viable toks p := by
  obtain ⟨t, ht⟩ := Option.isSome_iff_exists.mp hw
  obtain ⟨u, hu, hsub⟩ := M.built.walk_sub p [] 0 t M.built.eqReach_nil.sub ht
  have hne := M.built.spec.pos t u (by have := M.built.walk_ne hp ht; omega) hu
  obtain ⟨x, hx⟩ := List.exists_mem_of_ne_nil _ hne
  exact M.viable_of_path hv hp (by simpa using hsub x hx)

theorem Made.skips (M : Made toks lx N acc al D s0) (hv : ∀ p ∈ toks, NonVoid p.2) (full : Str) {k input out dr}
    (h : Run lx k input out dr) : ∃ out', Skips toks k input out' dr ∧ Pieces toks k input out' dr ∧
      out.mapM (lx.piece full) = out'.mapM (expected toks full) := by
  induction h with
  | done => exact ⟨[], .done, .stop, rfl⟩
  | ws h1 hf _ ih =>
    obtain ⟨out', h3, h3', h4⟩ := ih
    exact ⟨out', .blank (blank_iff.mp h1) ((M.start_iff hv).mp hf) h3, .blank (blank_iff.mp h1) h3', h4⟩
  | tok h1 h2 _ _ ih =>
    obtain ⟨out', h3, h3', h4⟩ := ih
    obtain ⟨i, q, hi, rfl, hm⟩ := M.acc_sound h1.1
    refine ⟨(_, i, _) :: out', by rw [h2]; exact Skips.tok h1.1.1 hi hm h3,
      by rw [h2]; exact Pieces.tok h1.1.1 hi hm h3', ?_⟩
    simp only [List.mapM_cons, M.piece hi h1.1.1, h4]
  | tokEnd h1 h2 h5 =>
    obtain ⟨i, q, hi, rfl, hm⟩ := M.acc_sound h1.1
    have hvi := M.walk_viable hv (by rw [h2]; simp [h1.1.1]) h5
    rw [h2] at hvi
    refine ⟨[(_, i, _)], by rw [h2]; exact Skips.last h1.1.1 hi hm hvi,
      by rw [h2]; exact Pieces.tok h1.1.1 hi hm .stop, ?_⟩
    simp only [List.mapM_cons, M.piece hi h1.1.1, List.mapM_nil]
  | stop _ h2 =>
    refine ⟨[], .stop ?_, .stop, rfl⟩
    rw [← blank_iff, ← M.start_iff hv]
    exact h2

/-! ## values -/

theorem bytes_append (a b : List Char) : bytes (a ++ b) = bytes a + bytes b := by simp [bytes]

theorem bytes_cons (c : Char) (b : List Char) : bytes (c :: b) = c.utf8Size + bytes b := by simp [bytes]

theorem bytes_zero {a : List Char} (h : bytes a = 0) : a = [] := by
  cases a with
  | nil => rfl
  | cons c a => rw [bytes_cons] at h; have := c.utf8Size_pos; omega

theorem bytes_ascii {a : List Char} (h : ∀ c ∈ a, c.toNat < 128) : bytes a = a.length := by
  induction a with
  | nil => rfl
  | cons c a ih =>
    rw [bytes_cons, ih fun x hx => h x (by simp [hx]), (Dfa.utf8Size_ascii c).mpr (h c (by simp)), List.length_cons]
    omega

theorem dropBytes_iff : ∀ (s : Str) (b : Nat) (t : Str), dropBytes s b = some t ↔ ∃ a, s = a ++ t ∧ bytes a = b
  | s, 0, t => by
    rw [show dropBytes s 0 = some s by cases s <;> rfl, Option.some.injEq]
    constructor
    · rintro rfl; exact ⟨[], rfl, rfl⟩
    · rintro ⟨a, rfl, ha⟩; rw [bytes_zero ha]; rfl
  | [], b + 1, t => by
    simp only [dropBytes, reduceCtorEq, false_iff]
    rintro ⟨a, ha, hb⟩
    have := (List.append_eq_nil_iff.mp ha.symm).1
    subst this
    simp [bytes] at hb
  | c :: s, b + 1, t => by
    simp only [dropBytes]
    split
    next hc =>
      rw [dropBytes_iff s]
      constructor
      · rintro ⟨a, rfl, ha⟩
        exact ⟨c :: a, rfl, by rw [bytes_cons]; omega⟩
      · rintro ⟨a, ha, hb⟩
        cases a with
        | nil => simp [bytes] at hb
        | cons c' a =>
          simp only [List.cons_append, List.cons.injEq] at ha
          obtain ⟨rfl, rfl⟩ := ha
          rw [bytes_cons] at hb
          exact ⟨a, rfl, by omega⟩
    next hc =>
      simp only [reduceCtorEq, false_iff]
      rintro ⟨a, ha, hb⟩
      cases a with
      | nil => simp [bytes] at hb
      | cons c' a =>
        simp only [List.cons_append, List.cons.injEq] at ha
        obtain ⟨rfl, rfl⟩ := ha
        rw [bytes_cons] at hb
        omega

theorem takeBytes_iff : ∀ (s : Str) (b : Nat) (v : Str), takeBytes s b = some v ↔ ∃ t, s = v ++ t ∧ bytes v = b
  | s, 0, v => by
    rw [show takeBytes s 0 = some [] by cases s <;> rfl, Option.some.injEq]
    constructor
    · rintro rfl; exact ⟨s, rfl, rfl⟩
    · rintro ⟨t, _, ha⟩; rw [bytes_zero ha]
  | [], b + 1, v => by
    simp only [takeBytes, reduceCtorEq, false_iff]
    rintro ⟨t, ht, hb⟩
    have := (List.append_eq_nil_iff.mp ht.symm).1
    subst this
    simp [bytes] at hb
  | c :: s, b + 1, v => by
    simp only [takeBytes]
    split
    next hc =>
      simp only [Option.map_eq_some_iff]
      constructor
      · rintro ⟨v', hv', rfl⟩
        obtain ⟨t, rfl, ht⟩ := (takeBytes_iff s _ v').mp hv'
        exact ⟨t, rfl, by rw [bytes_cons]; omega⟩
      · rintro ⟨t, ht, hb⟩
        cases v with
        | nil => simp [bytes] at hb
        | cons c' v =>
          simp only [List.cons_append, List.cons.injEq] at ht
          obtain ⟨rfl, rfl⟩ := ht
          rw [bytes_cons] at hb
          exact ⟨v, (takeBytes_iff _ _ v).mpr ⟨t, rfl, by omega⟩, rfl⟩
    next hc =>
      simp only [reduceCtorEq, false_iff]
      rintro ⟨t, ht, hb⟩
      cases v with
      | nil => simp [bytes] at hb
      | cons c' v =>
        simp only [List.cons_append, List.cons.injEq] at ht
        obtain ⟨rfl, rfl⟩ := ht
        rw [bytes_cons] at hb
        omega

/-- Slicing by bytes. -/
theorem byteSlice_iff {s : Str} {k n : Nat} {v : Str} : byteSlice s k (k + n) = .ok v ↔ BytesAt s k n v := by
  unfold byteSlice
  rw [if_pos (by omega), Nat.add_sub_cancel_left]
  have key : ((dropBytes s k).bind fun t => takeBytes t n) = some v ↔ BytesAt s k n v := by
    rw [Option.bind_eq_some_iff]
    constructor
    · rintro ⟨t, h1, h2⟩
      obtain ⟨a, rfl, ha⟩ := (dropBytes_iff s k t).mp h1
      obtain ⟨b, rfl, hb⟩ := (takeBytes_iff t n v).mp h2
      exact ⟨a, b, by simp, ha, hb⟩
    · rintro ⟨a, b, rfl, ha, hb⟩
      exact ⟨v ++ b, (dropBytes_iff _ k _).mpr ⟨a, by simp, ha⟩, (takeBytes_iff _ n v).mpr ⟨b, rfl, hb⟩⟩
  rw [← key]
  cases (dropBytes s k).bind fun t => takeBytes t n <;> simp

theorem expected_iff {input : Str} {p : Nat × Nat × List Char} {t : Token} :
    expected toks input p = .ok t ↔ Carries toks input p t := by
  obtain ⟨tn, tv⟩ := t
  unfold expected Carries
  cases hq : toks[p.2.1]? with
  | none => simp
  | some q =>
    obtain ⟨d, h⟩ := q
    cases hw : d.withVal with
    | false =>
      simp only [hw, Bool.false_eq_true, if_false, Except.ok.injEq, Token.mk.injEq, Option.some.injEq, Prod.mk.injEq]
      constructor
      · rintro ⟨rfl, rfl⟩; exact ⟨d, h, ⟨rfl, rfl⟩, rfl, .inl ⟨hw, rfl⟩⟩
      · rintro ⟨_, _, ⟨rfl, rfl⟩, rfl, ⟨_, rfl⟩ | ⟨h', _⟩⟩
        · exact ⟨rfl, rfl⟩
        · rw [hw] at h'; cases h'
    | true =>
      simp only [hw, if_true, Option.some.injEq, Prod.mk.injEq]
      constructor
      · intro he
        cases hb : byteSlice input p.1 (p.1 + p.2.2.length) with
        | error e => simp [hb, bind, Except.bind] at he
        | ok v =>
          simp only [hb, bind, Except.bind, pure, Except.pure, Except.ok.injEq, Token.mk.injEq] at he
          obtain ⟨rfl, rfl⟩ := he
          exact ⟨d, h, ⟨rfl, rfl⟩, rfl, .inr ⟨hw, v, rfl, byteSlice_iff.mp hb⟩⟩
      · rintro ⟨_, _, ⟨rfl, rfl⟩, rfl, ⟨h', _⟩ | ⟨_, v, rfl, hv⟩⟩
        · rw [hw] at h'; cases h'
        · rw [byteSlice_iff.mpr hv]; rfl

theorem mapM_iff {α β : Type} {f : α → Res β} : ∀ {l : List α} {r : List β},
    l.mapM f = .ok r ↔ List.Forall₂ (fun a b => f a = .ok b) l r
  | [], r => by
    simp only [List.mapM_nil, pure, Except.pure, Except.ok.injEq, List.forall₂_nil_left_iff]
    exact eq_comm
  | a :: l, r => by
    rw [List.forall₂_cons_left_iff, List.mapM_cons]
    constructor
    · intro h
      cases ha : f a with
      | error e => simp [ha, bind, Except.bind] at h
      | ok b =>
        cases hl : l.mapM f with
        | error e => simp [ha, hl, bind, Except.bind] at h
        | ok bs =>
          simp only [ha, hl, bind, Except.bind, pure, Except.pure, Except.ok.injEq] at h
          subst h
          exact ⟨b, bs, rfl, mapM_iff.mp hl, rfl⟩
    · rintro ⟨b, bs, hb, hbs, rfl⟩
      simp [hb, mapM_iff.mpr hbs, bind, Except.bind, pure, Except.pure]

end Lex
end Verif
