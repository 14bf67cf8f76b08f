import Verif.Model.Program
import Verif.Spec.Program
import Verif.Proofs.NfaSim
import Verif.Proofs.LexSpec
import Verif.Proofs.BuildOk
import Verif.Proofs.ParseGenOk

/-! # Where the program can stop -/

namespace Verif
open Spec

/-! ## Regexes -/

namespace Nfa

theorem unsupported_of {h : Hir} : Unimplemented h ∨ EmptyOperand h → Unsupported h := by
  rintro (h | h)
  · induction h with
    | anchor => exact .anchor
    | wordBoundary => exact .wordBoundary
    | range h => exact .range h
    | rep _ ih => exact .rep ih
    | group _ ih => exact .group ih
    | concat hm _ ih => exact .concat hm ih
    | alt hm _ ih => exact .alt hm ih
  · induction h with
    | repEmpty h => exact .repEmpty h
    | concatEmpty hm h => exact .concatEmpty hm h
    | altEmpty hm h => exact .altEmpty hm h
    | rep _ ih => exact .rep ih
    | group _ ih => exact .group ih
    | concat hm _ ih => exact .concat hm ih
    | alt hm _ ih => exact .alt hm ih

theorem of_unsupported {h : Hir} (hu : Unsupported h) : Unimplemented h ∨ EmptyOperand h := by
  induction hu with
  | anchor => exact .inl .anchor
  | wordBoundary => exact .inl .wordBoundary
  | range h => exact .inl (.range h)
  | repEmpty h => exact .inr (.repEmpty h)
  | concatEmpty hm h => exact .inr (.concatEmpty hm h)
  | altEmpty hm h => exact .inr (.altEmpty hm h)
  | rep _ ih => exact ih.imp .rep .rep
  | group _ ih => exact ih.imp .group .group
  | concat hm _ ih => exact ih.imp (.concat hm) (.concat hm)
  | alt hm _ ih => exact ih.imp (.alt hm) (.alt hm)

theorem bare_of_none {h : Hir} {n n' : Nfa} {a : Nat} (hc : compile h n a = .ok (n', none)) : BareEmpty h := by
  obtain ⟨n3, r3, h3, h4⟩ := compile_ok h (supported_of_ok h _ _ _ _ hc) n a
  rw [hc] at h3
  simp only [Except.ok.injEq, Prod.mk.injEq] at h3
  exact h4.mp h3.2.symm

/-- Why compilation of a regex fails. -/
def Fault (h : Hir) (e : Err) : Prop := (e = .todo ∧ Unimplemented h) ∨ (e = .optionUsizeNone ∧ EmptyOperand h)

theorem unwrapAll_error : ∀ {os : List (Option Nat)} {e : Err}, unwrapAll os = .error e → e = .optionUsizeNone ∧ none ∈ os
  | [], e, h => by simp [unwrapAll] at h
  | none :: os, e, h => by
    simp only [unwrapAll, unwrapO, bind, Except.bind, Except.error.injEq] at h
    exact ⟨h.symm, by simp⟩
  | some j :: os, e, h => by
    simp only [unwrapAll, unwrapO, bind, Except.bind] at h
    cases hu : unwrapAll os with
    | error e' =>
      rw [hu] at h
      simp only [Except.error.injEq] at h
      obtain ⟨h1, h2⟩ := unwrapAll_error hu
      exact ⟨h ▸ h1, by simp [h2]⟩
    | ok ts => simp [hu, pure, Except.pure] at h

mutual
theorem compile_error : ∀ (h : Hir) (n : Nfa) (a : Nat) (e : Err), compile h n a = .error e → Fault h e
  | .empty, _, _, _, h => by simp [compile] at h
  | .lit c, _, _, _, h => by simp [compile] at h
  | .cls rs, _, _, _, h => by simp [compile] at h
  | .anchor, _, _, _, h => by
    simp only [compile, Except.error.injEq] at h
    exact .inl ⟨h.symm, .anchor⟩
  | .wordBoundary, _, _, _, h => by
    simp only [compile, Except.error.injEq] at h
    exact .inl ⟨h.symm, .wordBoundary⟩
  | .rep k h, n, a, e, hc => by
    by_cases hk : k = .range
    · subst hk
      simp only [compile, Except.error.injEq] at hc
      exact .inl ⟨hc.symm, .range h⟩
    cases h1 : compile h n.pushState n.states.length with
    | error e' =>
      have he : e' = e := by cases k <;> simp_all [compile, bind, Except.bind]
      subst he
      exact (compile_error h _ _ _ h1).imp (And.imp id .rep) (And.imp id .rep)
    | ok p =>
      obtain ⟨n1, r1⟩ := p
      cases r1 with
      | none =>
        have he : e = .optionUsizeNone := by cases k <;> simp_all [compile, bind, Except.bind, unwrapO]
        exact .inr ⟨he, .repEmpty (bare_of_none h1)⟩
      | some i => cases k <;> simp_all [compile, bind, Except.bind, unwrapO, pure, Except.pure]
  | .group h, n, a, e, hc =>
    (compile_error h n a e (by simpa [compile] using hc)).imp (And.imp id .group) (And.imp id .group)
  | .concat hs, n, a, e, hc => by
    simp only [compile] at hc
    cases h1 : compileConcat hs n a with
    | error e' =>
      simp only [h1, bind, Except.bind, Except.error.injEq] at hc
      subst hc
      obtain ⟨h, hm, h2 | ⟨h2, h3⟩⟩ := compileConcat_error hs n a _ h1
      · exact h2.imp (And.imp id (.concat hm)) (And.imp id (.concat hm))
      · exact .inr ⟨h2, .concatEmpty hm h3⟩
    | ok p => simp [h1, bind, Except.bind, pure, Except.pure] at hc
  | .alt hs, n, a, e, hc => by
    simp only [compile] at hc
    cases h1 : compileAlts hs (n.pushState.pushEdge n.states.length none a).pushState
        n.states.length with
    | error e' =>
      simp only [h1, bind, Except.bind, Except.error.injEq] at hc
      subst hc
      obtain ⟨h, hm, h2⟩ := (compileAlts_error hs _ _).1 _ h1
      exact h2.imp (And.imp id (.alt hm)) (And.imp id (.alt hm))
    | ok p =>
      cases h2 : unwrapAll p.2 with
      | error e' =>
        simp only [h1, h2, bind, Except.bind, Except.error.injEq] at hc
        subst hc
        obtain ⟨h3, h4⟩ := unwrapAll_error h2
        obtain ⟨h, hm, h5⟩ := (compileAlts_error hs _ _).2 p.1 p.2 h1 h4
        exact .inr ⟨h3, .altEmpty hm h5⟩
      | ok ts => simp [h1, h2, bind, Except.bind, pure, Except.pure] at hc
theorem compileConcat_error : ∀ (hs : List Hir) (n : Nfa) (a : Nat) (e : Err), compileConcat hs n a = .error e →
    ∃ h ∈ hs, Fault h e ∨ (e = .optionUsizeNone ∧ BareEmpty h)
  | [], _, _, _, h => by simp [compileConcat] at h
  | h :: hs, n, a, e, hc => by
    simp only [compileConcat] at hc
    cases h1 : compileConcat hs n a with
    | error e' =>
      simp only [h1, bind, Except.bind, Except.error.injEq] at hc
      subst hc
      obtain ⟨h', hm, h2⟩ := compileConcat_error hs n a _ h1
      exact ⟨h', by simp [hm], h2⟩
    | ok p =>
      obtain ⟨n1, m⟩ := p
      simp only [h1, bind, Except.bind] at hc
      cases h2 : compile h n1 m with
      | error e' =>
        simp only [h2, Except.error.injEq] at hc
        subst hc
        exact ⟨h, by simp, .inl (compile_error h _ _ _ h2)⟩
      | ok q =>
        obtain ⟨n2, r⟩ := q
        cases r with
        | none =>
          simp only [h2, unwrapO, Except.error.injEq] at hc
          exact ⟨h, by simp, .inr ⟨hc.symm, bare_of_none h2⟩⟩
        | some i => simp [h2, unwrapO, pure, Except.pure] at hc
theorem compileAlts_error : ∀ (hs : List Hir) (n : Nfa) (a : Nat),
    (∀ e, compileAlts hs n a = .error e → ∃ h ∈ hs, Fault h e) ∧
    (∀ n' os, compileAlts hs n a = .ok (n', os) → none ∈ os → ∃ h ∈ hs, BareEmpty h)
  | [], n, a => by
    refine ⟨fun e h => by simp [compileAlts] at h, fun n' os h hm => ?_⟩
    simp only [compileAlts, Except.ok.injEq, Prod.mk.injEq] at h
    rw [← h.2] at hm; simp at hm
  | h :: hs, n, a => by
    cases h1 : compile h n a with
    | error e' =>
      refine ⟨fun e hc => ?_, fun n' os hc => by simp [compileAlts, h1, bind, Except.bind] at hc⟩
      simp only [compileAlts, h1, bind, Except.bind, Except.error.injEq] at hc
      subst hc
      exact ⟨h, by simp, compile_error h _ _ _ h1⟩
    | ok p =>
      obtain ⟨n1, r⟩ := p
      obtain ⟨i1, i2⟩ := compileAlts_error hs n1 a
      cases h2 : compileAlts hs n1 a with
      | error e' =>
        refine ⟨fun e hc => ?_, fun n' os hc => by simp [compileAlts, h1, h2, bind, Except.bind] at hc⟩
        simp only [compileAlts, h1, h2, bind, Except.bind, Except.error.injEq] at hc
        subst hc
        obtain ⟨h', hm, hf⟩ := i1 _ h2
        exact ⟨h', by simp [hm], hf⟩
      | ok q =>
        obtain ⟨n2, os'⟩ := q
        refine ⟨fun e hc => by simp [compileAlts, h1, h2, bind, Except.bind, pure, Except.pure] at hc, fun n' os hc hm => ?_⟩
        simp only [compileAlts, h1, h2, bind, Except.bind, pure, Except.pure, Except.ok.injEq, Prod.mk.injEq] at hc
        rw [← hc.2] at hm
        rcases List.mem_cons.mp hm with rfl | hm
        · exact ⟨h, by simp, bare_of_none h1⟩
        · obtain ⟨h', hm', hb⟩ := i2 _ _ h2 hm
          exact ⟨h', by simp [hm'], hb⟩
end

theorem fromRegex_error {h : Hir} {e : Err} (hc : fromRegex h = .error e) : Fault h e := by
  unfold fromRegex at hc
  cases h1 : compile h init FINAL with
  | error e' =>
    simp only [h1, bind, Except.bind, Except.error.injEq] at hc
    exact hc ▸ compile_error h _ _ _ h1
  | ok p => simp [h1, bind, Except.bind, pure, Except.pure] at hc

theorem fromRegex_ok_iff {h : Hir} : (∃ n, fromRegex h = .ok n) ↔ Supported h := by
  rw [← compile_ok_iff h init FINAL]
  unfold fromRegex
  cases hc : compile h init FINAL <;> simp [bind, Except.bind, pure, Except.pure]

theorem supported_litHir (s : Str) : Supported (Grammar.litHir s) := by
  match s with
  | [] => exact .empty
  | [c] => exact .lit _
  | c :: d :: cs =>
    refine .concat (fun h hh => ?_) (fun h hh hb => ?_)
    · obtain ⟨x, _, rfl⟩ := List.mem_map.mp hh
      exact .lit _
    · obtain ⟨x, _, rfl⟩ := List.mem_map.mp hh
      cases hb

end Nfa

/-! ## The lexer -/

theorem Lex.buildNfas_error : ∀ {toks : List (TokenDef × Hir)} {e : Err}, buildNfas toks = .error e →
    ∃ p ∈ toks, Nfa.fromRegex p.2 = .error e
  | [], e, h => by simp [buildNfas] at h
  | (t, hr) :: rest, e, h => by
    simp only [buildNfas] at h
    cases h1 : Nfa.fromRegex hr with
    | error e' =>
      simp only [h1, bind, Except.bind, Except.error.injEq] at h
      exact ⟨(t, hr), by simp, h ▸ h1⟩
    | ok n =>
      cases h2 : buildNfas rest with
      | error e' =>
        simp only [h1, h2, bind, Except.bind, Except.error.injEq] at h
        obtain ⟨p, hp, h3⟩ := buildNfas_error h2
        exact ⟨p, by simp [hp], h ▸ h3⟩
      | ok ns => simp [h1, h2, bind, Except.bind, pure, Except.pure] at h

theorem Lex.fromTokens_error {ord : Nfa.Order} (ho : Nfa.OrderOk ord) {toks : List (TokenDef × Hir)} {e : Err}
    (h : fromTokens ord toks = .error e) : ∃ p ∈ toks, Nfa.fromRegex p.2 = .error e := by
  unfold fromTokens at h
  cases hb : buildNfas toks with
  | error e' =>
    simp only [hb, bind, Except.bind, Except.error.injEq] at h
    exact h ▸ buildNfas_error hb
  | ok ns =>
    obtain ⟨acc, hc⟩ := combined hb
    obtain ⟨d, al, D, s0, h1, B⟩ := Dfa.fromNfa_built hc.base ho
    simp [hb, bind, Except.bind, h1, pure, Except.pure] at h

namespace Grammar

theorem tokenDefs_error (rx : Str → Option Hir) : ∀ {i : Nat} {ss : List Sym} {e : Err}, tokenDefs rx i ss = .error e →
    e = .badRegex ∧ ∃ r, Sym.regex r ∈ ss ∧ rx r = none
  | i, [], e, h => by simp [tokenDefs] at h
  | i, s :: ss, e, h => by
    simp only [tokenDefs] at h
    cases h1 : tokenDefWithRegex rx i s with
    | error e' =>
      simp only [h1, bind, Except.bind, Except.error.injEq] at h
      subst h
      cases s with
      | regex r =>
        simp only [tokenDefWithRegex] at h1
        cases hr : rx r with
        | none =>
          simp only [hr, Except.error.injEq] at h1
          exact ⟨h1.symm, r, by simp, hr⟩
        | some x => simp [hr] at h1
      | _ => simp [tokenDefWithRegex] at h1
    | ok d =>
      simp only [h1, bind, Except.bind] at h
      cases h2 : tokenDefs rx (i + 1) ss with
      | error e' =>
        simp only [h2, Except.error.injEq] at h
        obtain ⟨h3, r, h4, h5⟩ := tokenDefs_error rx h2
        exact ⟨h ▸ h3, r, by simp [h4], h5⟩
      | ok ds => cases d <;> simp [h2, pure, Except.pure] at h

theorem tokenDefs_ok (rx : Str → Option Hir) : ∀ {i : Nat} {ss : List Sym} {ds : List (TokenDef × Hir)},
    tokenDefs rx i ss = .ok ds →
    (∀ r, Sym.regex r ∈ ss → ∃ h, rx r = some h ∧ ∃ d ∈ ds, d.2 = h) ∧
    (∀ d ∈ ds, (∃ s, d.2 = litHir s) ∨ ∃ r, Sym.regex r ∈ ss ∧ rx r = some d.2)
  | i, [], ds, h => by
    simp only [tokenDefs, Except.ok.injEq] at h
    subst h; simp
  | i, s :: ss, ds, h => by
    simp only [tokenDefs] at h
    cases h1 : tokenDefWithRegex rx i s with
    | error e' => simp [h1, bind, Except.bind] at h
    | ok d =>
      simp only [h1, bind, Except.bind] at h
      cases h2 : tokenDefs rx (i + 1) ss with
      | error e' => simp [h2] at h
      | ok ds' =>
        obtain ⟨i1, i2⟩ := tokenDefs_ok rx h2
        cases s with
        | regex r =>
          simp only [tokenDefWithRegex] at h1
          cases hr : rx r with
          | none => simp [hr] at h1
          | some x =>
            simp only [hr, Except.ok.injEq] at h1
            subst h1
            simp only [h2, pure, Except.pure, Except.ok.injEq] at h
            subst h
            refine ⟨fun r' hr' => ?_, fun d hd => ?_⟩
            · rcases List.mem_cons.mp hr' with hr' | hr'
              · cases hr'
                exact ⟨x, hr, _, List.mem_cons_self, rfl⟩
              · obtain ⟨y, k1, d, k2, k3⟩ := i1 r' hr'
                exact ⟨y, k1, d, by simp [k2], k3⟩
            · rcases List.mem_cons.mp hd with rfl | hd
              · exact .inr ⟨r, by simp, hr⟩
              · exact (i2 d hd).imp id fun ⟨r, k1, k2⟩ => ⟨r, by simp [k1], k2⟩
        | strLit s =>
          simp only [tokenDefWithRegex, Except.ok.injEq] at h1
          subst h1
          simp only [h2, pure, Except.pure, Except.ok.injEq] at h
          subst h
          refine ⟨fun r' hr' => ?_, fun d hd => ?_⟩
          · simp only [List.mem_cons, reduceCtorEq, false_or] at hr'
            obtain ⟨y, k1, d, k2, k3⟩ := i1 r' hr'
            exact ⟨y, k1, d, by simp [k2], k3⟩
          · rcases List.mem_cons.mp hd with rfl | hd
            · exact .inl ⟨s, rfl⟩
            · exact (i2 d hd).imp id fun ⟨r, k1, k2⟩ => ⟨r, by simp [k1], k2⟩
        | _ =>
          simp only [tokenDefWithRegex, Except.ok.injEq] at h1
          subst h1
          simp only [h2, pure, Except.pure, Except.ok.injEq] at h
          subst h
          refine ⟨fun r' hr' => ?_, fun d hd => ?_⟩
          · simp only [List.mem_cons, reduceCtorEq, false_or] at hr'
            exact i1 r' hr'
          · exact (i2 d hd).imp id fun ⟨r, k1, k2⟩ => ⟨r, by simp [k1], k2⟩

/-- When there is a lexer, and why there is none otherwise. -/
theorem lexer_cases (rx : Str → Option Hir) {ord : Nfa.Order} (ho : Nfa.OrderOk ord) (g : Grammar) :
    ((∃ L, g.lexer rx ord = .ok L) ∧ ∀ r, Sym.regex r ∈ g.tokens → ∃ h, rx r = some h ∧ Supported h) ∨
    (g.lexer rx ord = .error .badRegex ∧ ∃ r, Sym.regex r ∈ g.tokens ∧ rx r = none) ∨
    ∃ e r h, g.lexer rx ord = .error e ∧ (∀ r, Sym.regex r ∈ g.tokens → rx r ≠ none) ∧ Sym.regex r ∈ g.tokens ∧
      rx r = some h ∧ Nfa.Fault h e := by
  unfold lexer
  cases h1 : tokenDefs rx 0 g.tokens with
  | error e =>
    obtain ⟨rfl, h2⟩ := tokenDefs_error rx h1
    exact .inr (.inl ⟨rfl, h2⟩)
  | ok ds =>
    obtain ⟨i1, i2⟩ := tokenDefs_ok rx h1
    cases h2 : Lex.fromTokens ord ds with
    | ok L =>
      refine .inl ⟨⟨L, by simp [bind, Except.bind, h2]⟩, fun r hr => ?_⟩
      obtain ⟨h, k1, d, k2, k3⟩ := i1 r hr
      refine ⟨h, k1, ?_⟩
      rw [← k3]
      exact Nfa.fromRegex_ok_iff.mp ((Lex.fromTokens_ok ho).mp ⟨L, h2⟩ d k2)
    | error e =>
      obtain ⟨d, k1, k2⟩ := Lex.fromTokens_error ho h2
      rcases i2 d k1 with ⟨s, k3⟩ | ⟨r, k3, k4⟩
      · rw [k3] at k2
        obtain ⟨n, hn⟩ := Nfa.fromRegex_ok_iff.mpr (Nfa.supported_litHir s)
        rw [hn] at k2; cases k2
      · refine .inr (.inr ⟨e, r, d.2, by simp [bind, Except.bind, h2], fun r' hr' => ?_, k3, k4, Nfa.fromRegex_error k2⟩)
        obtain ⟨h, k, _⟩ := i1 r' hr'
        rw [k]; simp

theorem regex_tokens {ps : List Ast.Prod} {g : Grammar} (he : Expressible ps) (hg : fromAst ps = .ok g) (r : Str) :
    Sym.regex r ∈ g.tokens ↔ HasRegex ps r := by
  obtain ⟨start, hs⟩ := fromAst_ok hg
  obtain ⟨g', hg', _, _, hp, _⟩ := fromAst_spec hs
  rw [hg] at hg'; cases hg'
  rw [(gok_of_fromAst he hg).tokMem, hp]
  constructor
  · rintro (h | ⟨p, hm, h⟩)
    · cases h
    · rcases List.mem_cons.mp hm with rfl | hm
      · simp at h
      · simp only [List.mem_flatMap, List.mem_map] at hm
        obtain ⟨q, hq, b, hb, rfl⟩ := hm
        obtain ⟨s, hs, k⟩ := List.mem_map.mp h
        exact ⟨q, hq, b, hb, s, hs, k⟩
  · rintro ⟨q, hq, b, hb, s, hs, k⟩
    refine .inr ⟨_, List.mem_cons_of_mem _ (List.mem_flatMap.mpr ⟨q, hq, List.mem_map.mpr ⟨b, hb, rfl⟩⟩), ?_⟩
    exact List.mem_map.mpr ⟨s, hs, k⟩

end Grammar

/-! ## The generated files -/

theorem ParseGen.generate_never {ps : List Ast.Prod} {g : Grammar} {l : Lalr} (he : Expressible ps)
    (hn : ∀ p ∈ ps, ∀ b ∈ p.bodies, ∀ n ty, Ast.InSym.named n ty ∈ b.inputs → n ≠ none ∧ ∀ m t, ty ≠ .named m t)
    (hg : Grammar.fromAst ps = .ok g) (hl : l.grammar = g) : ∃ T, generate ps l = .ok T := by
  have hok := Grammar.gok_of_fromAst he hg
  have hw : ∀ b ∈ bodiesOf ps, ∀ s ∈ b.2.inputs, Written s := fun b hb s hs => by
    obtain ⟨p, hp, _, hb'⟩ := mem_bodiesOf hb
    obtain ⟨k1, k2, _⟩ := ((he p hp).2 b.2 hb').2 s hs
    exact ⟨k1, k2, fun n ty e => hn p hp b.2 hb' n ty (e ▸ hs)⟩
  obtain ⟨as, h1, h2⟩ := actsFrom_ok (bs := bodiesOf ps) 1 hw
  obtain ⟨ar, h5⟩ := args_ok hw h1
  obtain ⟨pr, h3, h4⟩ := genProductions_ok hok (ps := g.prods) fun _ h => h
  have heps : Sym.epsilon ∉ g.tokens := by
    intro h
    rcases (hok.tokMem _).mp h with h | ⟨p, hp, h⟩
    · cases h
    · exact hok.noEps p hp h
  refine ⟨⟨ps.map (·.name), pr, l.action, l.goto, genKinds g, as⟩, ?_⟩
  simp only [generate, actsOf, h1, hl, heps, if_false, h3, h5, bind, Except.bind, pure, Except.pure]

end Verif
