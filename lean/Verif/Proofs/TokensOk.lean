import Verif.Spec.Tokens
import Verif.Proofs.LexUnique
import Verif.Proofs.GrammarOk

/-! From terminals to lexer tokens and back. -/

namespace Verif
open Spec

namespace Grammar

theorem concat_lits : ∀ (s w : List Char), Matches (.concat (s.map fun c => .lit c.toNat)) w ↔ w = s
  | [], w => by
    constructor
    · intro h; cases h; rfl
    · rintro rfl; exact .concatNil
  | c :: s, w => by
    constructor
    · intro h
      rw [List.map_cons] at h
      generalize hx : Hir.lit c.toNat = x at h
      cases h with
      | concatCons h1 h2 =>
        subst hx
        cases h1 with
        | lit hc =>
          rw [(concat_lits s _).mp h2, Char.toNat_inj.mp hc]; rfl
    · rintro rfl
      exact .concatCons (w₁ := [c]) (.lit rfl) ((concat_lits s s).mpr rfl)

/-- The regex of a string literal matches the literal and nothing else. -/
theorem litHir_matches (s w : List Char) : Matches (litHir s) w ↔ w = s := by
  match s with
  | [] =>
    constructor
    · intro h; cases h; rfl
    · rintro rfl; exact .empty
  | [c] =>
    constructor
    · intro h
      cases h with
      | lit hc => rw [Char.toNat_inj.mp hc]
    · rintro rfl; exact .lit rfl
  | c :: d :: s => exact concat_lits (c :: d :: s) w

theorem tokenDef_spec {rx : Str → Option Hir} {i : Nat} {s : Sym} {o : Option (TokenDef × Hir)}
    (h : tokenDefWithRegex rx i s = .ok o) :
    (o = none ∧ ¬ IsTerm s) ∨ ∃ d, o = some d ∧ IsTerm s ∧ d.1 = ⟨spelling s, true, some i⟩ ∧
      ∀ w, Matches d.2 w ↔ Denotes rx s w := by
  cases s with
  | strLit s => cases h; exact .inr ⟨_, rfl, trivial, rfl, litHir_matches s⟩
  | regex s =>
    cases hr : rx s with
    | none => simp [tokenDefWithRegex, hr] at h
    | some r =>
      simp only [tokenDefWithRegex, hr, Except.ok.injEq] at h
      subst h
      refine .inr ⟨_, rfl, trivial, rfl, fun w => ?_⟩
      simp [Denotes, hr]
  | nonTerm s => cases h; exact .inl ⟨rfl, id⟩
  | epsilon => cases h; exact .inl ⟨rfl, id⟩
  | eof => cases h; exact .inl ⟨rfl, id⟩

theorem tokenDefs_spec {rx : Str → Option Hir} : ∀ {i : Nat} {ss : List Sym} {ds : List (TokenDef × Hir)},
    tokenDefs rx i ss = .ok ds →
    (∀ d ∈ ds, ∃ (s : Sym) (k : Nat), ss[k]? = some s ∧ IsTerm s ∧ d.1 = ⟨spelling s, true, some (i + k)⟩ ∧
      ∀ w, Matches d.2 w ↔ Denotes rx s w) ∧
    (∀ (s : Sym) (k : Nat), ss[k]? = some s → IsTerm s → ∃ d ∈ ds, d.1 = ⟨spelling s, true, some (i + k)⟩) ∧
    ds.Pairwise (fun a b => ∃ i j, a.1.tokenIdx = some i ∧ b.1.tokenIdx = some j ∧ i < j)
  | i, [], ds, h => by
    cases h
    exact ⟨by simp, by simp, .nil⟩
  | i, s :: ss, ds, h => by
    unfold tokenDefs at h
    cases ho : tokenDefWithRegex rx i s with
    | error e => simp [ho, bind, Except.bind] at h
    | ok o =>
      cases hd : tokenDefs rx (i + 1) ss with
      | error e => simp [ho, hd, bind, Except.bind] at h
      | ok ds' =>
        obtain ⟨h1, h2, h3⟩ := tokenDefs_spec hd
        simp only [ho, hd, bind, Except.bind] at h
        have e1 : ∀ d ∈ ds', ∃ (t : Sym) (k : Nat), (s :: ss)[k]? = some t ∧ IsTerm t ∧
            d.1 = ⟨spelling t, true, some (i + k)⟩ ∧ ∀ w, Matches d.2 w ↔ Denotes rx t w := by
          intro d hd
          obtain ⟨t, k, g1, g2, g3, g4⟩ := h1 d hd
          exact ⟨t, k + 1, g1, g2, by rw [g3, show i + 1 + k = i + (k + 1) by omega], g4⟩
        rcases tokenDef_spec ho with ⟨rfl, hn⟩ | ⟨d, rfl, ht, g3, g4⟩
        · cases h
          refine ⟨e1, fun t k hk ht => ?_, h3⟩
          cases k with
          | zero => simp only [List.getElem?_cons_zero, Option.some.injEq] at hk; subst hk; exact absurd ht hn
          | succ k =>
            obtain ⟨d, hd, g⟩ := h2 t k hk ht
            exact ⟨d, hd, by rw [g, show i + 1 + k = i + (k + 1) by omega]⟩
        · cases h
          refine ⟨?_, fun t k hk ht => ?_, ?_⟩
          · intro d' hd'
            rcases List.mem_cons.mp hd' with rfl | hd'
            · exact ⟨s, 0, rfl, ht, g3, g4⟩
            · exact e1 d' hd'
          · cases k with
            | zero =>
              simp only [List.getElem?_cons_zero, Option.some.injEq] at hk; subst hk
              exact ⟨d, by simp, g3⟩
            | succ k =>
              obtain ⟨d, hd, g⟩ := h2 t k hk ht
              exact ⟨d, by simp [hd], by rw [g, show i + 1 + k = i + (k + 1) by omega]⟩
          · refine List.pairwise_cons.mpr ⟨fun d' hd' => ?_, h3⟩
            obtain ⟨t, k, _, _, g, _⟩ := h1 d' hd'
            exact ⟨i, i + 1 + k, by rw [g3], by rw [g], by omega⟩

theorem declares {rx : Str → Option Hir} {g : Grammar} {ds : List (TokenDef × Hir)}
    (h : tokenDefs rx 0 g.tokens = .ok ds) : Declares rx g ds := by
  obtain ⟨h1, h2, h3⟩ := tokenDefs_spec h
  simp only [Nat.zero_add] at h1 h2
  exact ⟨h1, h2, h3⟩

theorem lexer_ok {rx : Str → Option Hir} {ord : Nfa.Order} {g : Grammar} {lx : Lex} (h : g.lexer rx ord = .ok lx) :
    ∃ ds, tokenDefs rx 0 g.tokens = .ok ds ∧ Lex.fromTokens ord ds = .ok lx := by
  unfold lexer at h
  cases hd : tokenDefs rx 0 g.tokens with
  | error e => simp [hd, bind, Except.bind] at h
  | ok ds => exact ⟨ds, rfl, by simpa [hd, bind, Except.bind] using h⟩

end Grammar

namespace Lex

theorem foldl_defs {n : Str} {d : TokenDef} : ∀ (l : List (Nat × TokenDef)) (m : List (Str × TokenDef)),
    (∀ p ∈ l, p.2.name = n → p.2 = d) → (mget n m = some d ∨ ∃ p ∈ l, p.2.name = n) →
    mget n (l.foldl (fun m p => minsert p.2.name p.2 m) m) = some d
  | [], m, _, h => by simpa using h
  | p :: l, m, h1, h2 => by
    refine foldl_defs l _ (fun q hq => h1 q (by simp [hq])) ?_
    rw [mget_minsert]
    by_cases hp : n = p.2.name
    · left; rw [if_pos hp, h1 p (by simp) hp.symm]
    · rw [if_neg hp]
      rcases h2 with h2 | ⟨q, hq, hn⟩
      · exact .inl h2
      · rcases List.mem_cons.mp hq with rfl | hq
        · exact absurd hn.symm hp
        · exact .inr ⟨q, hq, hn⟩

theorem foldl_defs_mem {n : Str} {d : TokenDef} : ∀ (l : List (Nat × TokenDef)) (m : List (Str × TokenDef)),
    mget n (l.foldl (fun m p => minsert p.2.name p.2 m) m) = some d →
    mget n m = some d ∨ ∃ p ∈ l, p.2 = d ∧ d.name = n
  | [], m, h => .inl h
  | p :: l, m, h => by
    rcases foldl_defs_mem l _ h with h | ⟨q, hq, h⟩
    · rw [mget_minsert] at h
      by_cases hp : n = p.2.name
      · rw [if_pos hp] at h
        cases h
        exact .inr ⟨p, by simp, rfl, hp.symm⟩
      · rw [if_neg hp] at h; exact .inl h
    · exact .inr ⟨q, by simp [hq], h⟩

theorem Made.tokens_mem {toks lx N acc al D s0} (M : Made toks lx N acc al D s0) (d : TokenDef) :
    (∃ p ∈ lx.tokens, p.2 = d) ↔ ∃ q ∈ toks, q.1 = d := by
  rw [M.comb.tokens]
  simp only [List.mem_map, List.mem_range]
  constructor
  · rintro ⟨p, ⟨i, hi, rfl⟩, rfl⟩
    exact ⟨toks[i], List.getElem_mem hi, by simp [List.getD, hi]⟩
  · rintro ⟨q, hq, rfl⟩
    obtain ⟨i, hi, rfl⟩ := List.mem_iff_getElem.mp hq
    exact ⟨_, ⟨i, hi, rfl⟩, by simp [List.getD, hi]⟩

theorem convertLoop_ok {m : List (Str × TokenDef)} : ∀ {ts : List Token} {ks : List Nat},
    List.Forall₂ (fun t k => ∃ d, mget t.name m = some d ∧ d.tokenIdx = some k) ts ks →
    convertLoop m ts = .ok (ts.zip ks)
  | _, _, .nil => rfl
  | t :: ts, k :: ks, .cons ⟨d, h1, h2⟩ h => by
    simp [convertLoop, tokenWithIdx, h1, h2, convertLoop_ok h, bind, Except.bind, pure, Except.pure]

/-- Conversion with distinct spellings. -/
theorem convert_spec {rx : Str → Option Hir} {ord : Nfa.Order} (ho : Nfa.OrderOk ord) {g : Grammar} (hok : Grammar.GOk g)
    {lx : Lex} (h : g.lexer rx ord = .ok lx) (hds : DistinctSpellings g) {ts : List Token} {ss : List Sym}
    (hts : List.Forall₂ (fun t s => s ∈ g.tokens ∧ IsTerm s ∧ t.name = spelling s) ts ss) :
    ∃ ks, ks.map (fun k => g.tokens[k]?) = ss.map some ∧ 0 ∉ ks ∧
      lx.convertTokens ts = .ok (ts.zip ks ++ [(⟨"EOF".toList, none⟩, 0)]) ∧ ks.length = ts.length := by
  obtain ⟨ds, h1, h2⟩ := Grammar.lexer_ok h
  obtain ⟨N, acc, al, D, s0, M⟩ := fromTokens_made ho h2
  have hD := Grammar.declares h1
  suffices hk : ∃ ks : List Nat, ks.map (fun k => g.tokens[k]?) = ss.map some ∧ 0 ∉ ks ∧
      List.Forall₂ (fun (t : Token) k => ∃ d, mget t.name lx.defMap = some d ∧ d.tokenIdx = some k) ts ks by
    obtain ⟨ks, g1, g2, g3⟩ := hk
    refine ⟨ks, g1, g2, ?_, g3.length_eq.symm⟩
    simp [convertTokens, convertLoop_ok g3, bind, Except.bind, pure, Except.pure, EOF_IDX]
  clear h h2
  induction hts with
  | nil => exact ⟨[], rfl, by simp, .nil⟩
  | @cons t s ts ss hs _ ih =>
    obtain ⟨ks, g1, g2, g3⟩ := ih
    obtain ⟨hs1, hs2, hs3⟩ := hs
    obtain ⟨k, hk⟩ := List.getElem?_of_mem hs1
    refine ⟨k :: ks, ?_, ?_, .cons ⟨⟨spelling s, true, some k⟩, ?_, rfl⟩ g3⟩
    · simp only [List.map_cons, hk]; rw [g1]
    · intro h0
      rcases List.mem_cons.mp h0 with rfl | h0
      · rw [hok.tok0] at hk; cases hk; exact hs2
      · exact g2 h0
    · rw [hs3]
      refine foldl_defs _ _ ?_ (.inr ?_)
      · intro p hp hn
        obtain ⟨q, hq, hqd⟩ := (M.tokens_mem p.2).mp ⟨p, hp, rfl⟩
        obtain ⟨s', k', e1, e2, e3, _⟩ := hD.each q hq
        rw [← hqd, e3] at hn ⊢
        have := hds s' (List.mem_of_getElem? e1) s hs1 e2 hs2 hn
        subst this
        have : k' = k := by
          rw [← hk] at e1
          exact ((List.getElem?_inj (List.getElem?_eq_some_iff.mp hk).1 hok.tokNodup).mp e1.symm).symm
        rw [this]
      · obtain ⟨d, hd, e⟩ := hD.all s k hk hs2
        obtain ⟨p, hp, hpd⟩ := (M.tokens_mem d.1).mpr ⟨d, hd, rfl⟩
        exact ⟨p, hp, by rw [hpd, e]⟩

theorem expected_names {toks : List (TokenDef × Hir)} {input : Str} : ∀ {out : List (Nat × Nat × List Char)}
    {ts : List Token}, out.mapM (expected toks input) = .ok ts →
    List.Forall₂ (fun t p => t.name = (tokenOf toks p).name) ts out
  | [], ts, h => by cases h; exact .nil
  | p :: out, ts, hts => by
    simp only [List.mapM_cons] at hts
    cases hp : expected toks input p with
    | error e => simp [hp, bind, Except.bind] at hts
    | ok t =>
      cases hm : out.mapM (expected toks input) with
      | error e => simp [hp, hm, bind, Except.bind] at hts
      | ok us =>
        simp only [hp, hm, bind, Except.bind, pure, Except.pure, Except.ok.injEq] at hts
        subst hts
        refine .cons ?_ (expected_names hm)
        unfold expected at hp
        unfold tokenOf
        cases hq : toks[p.2.1]? with
        | none => simp [hq] at hp
        | some q =>
          obtain ⟨d, hir⟩ := q
          simp only [hq] at hp ⊢
          by_cases hv : d.withVal = true
          · simp only [hv, if_true] at hp
            cases hb : byteSlice input p.1 (p.1 + p.2.2.length) with
            | error e => simp [hb, bind, Except.bind] at hp
            | ok v =>
              simp only [hb, bind, Except.bind, pure, Except.pure, Except.ok.injEq] at hp
              rw [← hp]
          · simp only [hv, Bool.false_eq_true, if_false] at hp
            cases hp; rfl

/-- The terminals of the pieces. -/
theorem piece_syms {rx : Str → Option Hir} {g : Grammar} {ds : List (TokenDef × Hir)} (hD : Declares rx g ds)
    {out : List (Nat × Nat × List Char)} {ts : List Token}
    (hn : List.Forall₂ (fun t p => t.name = (tokenOf ds p).name) ts out)
    (ho : ∀ p ∈ out, ∃ q, ds[p.2.1]? = some q) :
    ∃ ss : List Sym, out.map (pieceSym g ds) = ss.map some ∧
      List.Forall₂ (fun t s => s ∈ g.tokens ∧ IsTerm s ∧ t.name = spelling s) ts ss := by
  induction hn with
  | nil => exact ⟨[], rfl, .nil⟩
  | @cons t p ts out ht _ ih =>
    obtain ⟨ss, h1, h2⟩ := ih fun p hp => ho p (by simp [hp])
    obtain ⟨q, hq⟩ := ho p (by simp)
    obtain ⟨s, k, e1, e2, e3, _⟩ := hD.each q (List.mem_of_getElem? hq)
    refine ⟨s :: ss, ?_, .cons ⟨List.mem_of_getElem? e1, e2, ?_⟩ h2⟩
    · simp only [List.map_cons, List.cons.injEq]
      exact ⟨by simp [pieceSym, hq, e3, e1], h1⟩
    · rw [ht]; simp [tokenOf, hq, e3]

end Lex
end Verif
