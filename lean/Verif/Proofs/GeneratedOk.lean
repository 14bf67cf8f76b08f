import Verif.Proofs.CharsTextOk
import Verif.Proofs.TableRows
import Verif.Proofs.SourceOk
import Verif.Proofs.ParseGenOk

/-! # Names and keys of generated tables -/

namespace Verif.Spec
open Verif

theorem readText_of {text : Str} {toks : List TsTok} {ds : List (Str × TsTy)}
    (h1 : scanFrom ⟨.between, []⟩ text = ⟨.between, toks⟩) (h2 : (readToks ⟨[], none, false, []⟩ toks).bind readEnd = some ds) :
    readText text = some ds := by
  unfold scanFrom at h1
  unfold readText scanText
  rw [h1]
  exact h2

theorem isWordChar_of {c : Char} (h : ∃ r ∈ [(48, 57), (65, 90), (95, 95), (97, 122)], r.1 ≤ c.toNat ∧ c.toNat ≤ r.2) :
    isWordChar c = true := by
  have e1 : 'a'.toNat = 97 := rfl
  have e2 : 'z'.toNat = 122 := rfl
  have e3 : 'A'.toNat = 65 := rfl
  have e4 : 'Z'.toNat = 90 := rfl
  have e5 : '0'.toNat = 48 := rfl
  have e6 : '9'.toNat = 57 := rfl
  simp only [List.mem_cons, List.not_mem_nil, or_false] at h
  obtain ⟨r, hr, h1, h2⟩ := h
  simp only [isWordChar, isWordStart, isDigit, Bool.or_eq_true, decide_eq_true_eq, beq_iff_eq, e1, e2, e3, e4, e5, e6]
  rcases hr with rfl | rfl | rfl | rfl
  · exact .inr ⟨h1, h2⟩
  · exact .inl (.inl (.inl (.inr ⟨h1, h2⟩)))
  · refine .inl (.inl (.inr ?_))
    exact (char_toNat_eq (d := '_')).mp (by simp only at h1 h2; have : '_'.toNat = 95 := rfl; omega)
  · exact .inl (.inl (.inl (.inl ⟨h1, h2⟩)))

theorem isWordStart_of {c : Char} (h : ∃ r ∈ [(65, 90), (95, 95), (97, 122)], r.1 ≤ c.toNat ∧ c.toNat ≤ r.2) :
    isWordStart c = true := by
  have e1 : 'a'.toNat = 97 := rfl
  have e2 : 'z'.toNat = 122 := rfl
  have e3 : 'A'.toNat = 65 := rfl
  have e4 : 'Z'.toNat = 90 := rfl
  simp only [List.mem_cons, List.not_mem_nil, or_false] at h
  obtain ⟨r, hr, h1, h2⟩ := h
  simp only [isWordStart, Bool.or_eq_true, decide_eq_true_eq, beq_iff_eq, e1, e2, e3, e4]
  rcases hr with rfl | rfl | rfl
  · exact .inl (.inl (.inr ⟨h1, h2⟩))
  · refine .inl (.inr ?_)
    exact (char_toNat_eq (d := '_')).mp (by simp only at h1 h2; have : '_'.toNat = 95 := rfl; omega)
  · exact .inl (.inl (.inl ⟨h1, h2⟩))

theorem star_wordChars {h : Hir} {w : List Char} (hm : Matches h w)
    (hh : h = .rep .zeroOrMore (.cls [(48, 57), (65, 90), (95, 95), (97, 122)])) : ∀ c ∈ w, isWordChar c = true := by
  induction hm with
  | starNil => simp
  | @starCons h' w₁ w₂ h1 h2 _ ih =>
    cases hh
    obtain ⟨c, rfl, hr⟩ := matches_cls.mp h1
    intro x hx
    rcases List.mem_append.mp hx with hx | hx
    · rw [List.mem_singleton.mp hx]; exact isWordChar_of hr
    · exact ih rfl x hx
  | _ => cases hh

/-- Identifiers of grammar files are words of TypeScript. -/
theorem ident_word {s : Str} (h : Matches GrammarFile.ident s) : WordName s := by
  obtain ⟨a, b, rfl, h1, h2⟩ := matches_concat_cons.mp h
  obtain ⟨c, d, rfl, h3, h4⟩ := matches_concat_cons.mp h2
  rw [matches_concat_nil.mp h4, List.append_nil]
  obtain ⟨x, rfl, hx⟩ := matches_cls.mp h1
  exact ⟨x, c, rfl, isWordStart_of hx, star_wordChars h3 rfl⟩

theorem PlainName.two {s : Str} (h : PlainName s) : Plain2 s := fun c hc => ⟨(h c hc).1, (h c hc).2.2.1, (h c hc).2.2.2⟩

end Verif.Spec

namespace Verif.ParseGen
open Verif.Spec Verif.Grammar

theorem prodTokens_spec {g : Grammar} (hg : GOk g) : ∀ {ss : List Sym} {l : List Nat}, prodTokens g ss = .ok l →
    l.map (g.tokens[·]?) = ss.map some
  | [], l, h => by cases h; rfl
  | s :: ss, l, h => by
    simp only [prodTokens] at h
    cases hk : g.getTokenIdx s with
    | none => simp [hk] at h
    | some k =>
      simp only [hk, bind, Except.bind] at h
      cases hl : prodTokens g ss with
      | error e => simp [hl] at h
      | ok l' =>
        simp only [hl, pure, Except.pure, Except.ok.injEq] at h
        subst h
        simp only [List.map_cons, prodTokens_spec hg hl, GOk.tokIdx hg |>.mp hk]

theorem genProductions_spec {g : Grammar} (hg : GOk g) : ∀ {ps : List Production} {l : List (Str × List Nat)},
    genProductions g ps = .ok l →
    l.map (fun e => (e.1, e.2.map (g.tokens[·]?))) = ps.map fun p => (p.name, p.inputs.map some)
  | [], l, h => by cases h; rfl
  | p :: ps, l, h => by
    simp only [genProductions, bind, Except.bind] at h
    cases h1 : prodTokens g p.inputs with
    | error e => simp [h1] at h
    | ok ts =>
      simp only [h1] at h
      cases h2 : genProductions g ps with
      | error e => simp [h2] at h
      | ok l' =>
        simp only [h2, pure, Except.pure, Except.ok.injEq] at h
        subst h
        simp only [List.map_cons, genProductions_spec hg h2, prodTokens_spec hg h1]

theorem generate_fields {ps : List Ast.Prod} {l : Lalr} {T : Tables} (h : generate ps l = .ok T) :
    T.symbols = ps.map (·.name) ∧ genProductions l.grammar l.grammar.prods = .ok T.productions ∧ T.action = l.action ∧
      T.goto = l.goto ∧ T.kindToIdx = genKinds l.grammar ∧ Sym.epsilon ∉ l.grammar.tokens := by
  unfold generate at h
  cases h1 : actsOf ps with
  | error e => simp [h1, bind, Except.bind] at h
  | ok as =>
    simp only [h1, bind, Except.bind] at h
    split at h
    · cases h
    · next he =>
      simp only [pure, Except.pure] at h
      cases h2 : genProductions l.grammar l.grammar.prods with
      | error e => simp [h2] at h
      | ok pr =>
        simp only [h2] at h
        split at h
        · cases h
        cases h
        exact ⟨rfl, rfl, rfl, rfl, rfl, he⟩

theorem keyOf_inj {g : Grammar} (hk : DistinctKinds g) {s t : Sym} (hs : s ∈ g.tokens) (ht : t ∈ g.tokens)
    (h1 : IsTerm s ∨ s = .eof) (h2 : IsTerm t ∨ t = .eof) (e : keyOf s = keyOf t) : s = t := by
  have hterm : ∀ s, IsTerm s → keyOf s = spelling s := by intro s h; cases s <;> first | rfl | exact False.elim h
  rcases h1 with h1 | rfl <;> rcases h2 with h2 | rfl
  · exact hk.1 s hs t ht h1 h2 (by rwa [hterm s h1, hterm t h2] at e)
  · exact absurd (by rwa [hterm s h1] at e) (hk.2 s hs h1)
  · exact absurd (by rw [hterm t h2] at e; exact e.symm) (hk.2 t ht h2)
  · rfl

theorem entry_key {s : Sym} {i : Nat} {x : Str × Nat} (h : x ∈ kindEntry (s, i)) : x.1 = keyOf s := by
  cases s <;> simp only [kindEntry, Option.mem_def, Option.some.injEq, reduceCtorEq] at h <;> subst h <;> rfl

theorem kinds_nodup {g : Grammar} (hg : GOk g) (hk : DistinctKinds g) : ((genKinds g).map Prod.fst).Nodup := by
  have hp : g.tokens.zipIdx.Pairwise fun a b => ∀ x ∈ kindEntry a, ∀ y ∈ kindEntry b, x.1 ≠ y.1 := by
    have hn : (g.tokens.zipIdx.map Prod.fst).Nodup := by simpa using hg.tokNodup
    have hn' := List.pairwise_map.mp hn
    refine hn'.imp_of_mem ?_
    intro a b ha hb hab x hx y hy e
    obtain ⟨s, i⟩ := a
    obtain ⟨t, j⟩ := b
    have hs : s ∈ g.tokens := List.fst_mem_of_mem_zipIdx ha
    have ht : t ∈ g.tokens := List.fst_mem_of_mem_zipIdx hb
    refine hab (keyOf_inj hk hs ht ?_ ?_ ?_)
    · cases s <;> simp_all [kindEntry, IsTerm]
    · cases t <;> simp_all [kindEntry, IsTerm]
    · rw [← entry_key hx, ← entry_key hy, e]
  unfold genKinds
  refine List.pairwise_map.mpr (List.pairwise_filterMap.mpr (hp.imp ?_))
  intro a b h x hx y hy
  exact h x hx y hy

end Verif.ParseGen
