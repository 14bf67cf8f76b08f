import Verif.Props.TsLex
import Verif.Props.TsParse
import Verif.Props.ParseExact

/-! # Properties C47 and C54: `Parse<Lex<input>>` against `Lalr::parse` and against the grammar -/

namespace Verif.Props
open Verif Spec

section
variable {H : Type} [DecidableEq H] {hash : List Item → H} {rx : Str → Option Hir} {ord : Nfa.Order}
  {ps : List Ast.Prod} {start : Ast.Prod} {g : Grammar} {l : Lalr} {T : ParseGen.Tables} {max : Nat}
  {V : Type} {S : Ts.Sem V}

theorem pieces_mem {toks : List (TokenDef × Hir)} {k : Nat} {input dr : List Char} {out : List (Nat × Nat × List Char)}
    (h : Pieces toks k input out dr) : (∀ p ∈ out, ∃ q, toks[p.2.1]? = some q ∧ Matches q.2 p.2.2) ∧
      out.length ≤ input.length := by
  induction h with
  | stop => simp
  | blank _ _ ih => exact ⟨ih.1, by simp; omega⟩
  | @tok k w i p rest out dr hne hp hm _ ih =>
    refine ⟨?_, ?_⟩
    · intro x hx
      rcases List.mem_cons.mp hx with rfl | hx
      · exact ⟨p, hp, hm⟩
      · exact ih.1 x hx
    · have : 0 < w.length := List.length_pos_iff.mpr hne
      simp; omega

/-- A lexer token in TypeScript. -/
def tsTok (t : Token) : Ts.Tok := ⟨t.name, t.val.map .val⟩

theorem pieces_for {ds : List (TokenDef × Hir)} (hD : Declares rx g ds) : ∀ {out : List (Nat × Nat × List Char)},
    (∀ p ∈ out, ∃ q, ds[p.2.1]? = some q ∧ Matches q.2 p.2.2) →
    ∃ ss : List Sym, out.map (pieceSym g ds) = ss.map some ∧ (∀ s ∈ ss, IsTerm s) ∧
      List.Forall₂ (fun t s => s ∈ g.tokens ∧ IsTerm s ∧ t.name = spelling s) (out.map (tokenOf ds)) ss ∧
      List.Forall₂ (TokenFor g) ((out.map (tokenOf ds)).map tsTok) ss ∧
      List.Forall₂ (fun (t : Ts.Tok) w => t.value = some (.val w)) ((out.map (tokenOf ds)).map tsTok) (out.map (·.2.2))
  | [], _ => ⟨[], rfl, by simp, .nil, .nil, .nil⟩
  | p :: out, h => by
    obtain ⟨ss, h1, h2, h3, h4, h5⟩ := pieces_for hD (out := out) fun p hp => h p (by simp [hp])
    obtain ⟨q, hq, hm⟩ := h p (by simp)
    obtain ⟨s, k, e1, e2, e3, e4⟩ := hD.each q (List.mem_of_getElem? hq)
    have htok : tokenOf ds p = ⟨spelling s, some p.2.2⟩ := by
      obtain ⟨d, hir⟩ := q
      simp only at e3
      subst e3
      simp [tokenOf, hq]
    refine ⟨s :: ss, ?_, ?_, .cons ⟨List.mem_of_getElem? e1, e2, by rw [htok]⟩ h3,
      .cons (.inr ⟨List.mem_of_getElem? e1, p.2.2, e2, by rw [htok]; rfl, by rw [htok]; rfl, ?_⟩) h4,
      .cons (by rw [htok]; rfl) h5⟩
    · simp only [List.map_cons, List.cons.injEq]
      exact ⟨by simp [pieceSym, hq, e3, e1], h1⟩
    · intro x hx
      rcases List.mem_cons.mp hx with rfl | hx
      · exact e2
      · exact h2 x hx
    · rintro lit rfl
      exact (e4 p.2.2).mp hm

theorem texts_unique : ∀ {ts : List Ts.Tok} {a b : List Str},
    List.Forall₂ (fun (t : Ts.Tok) w => t.value = some (.val w)) ts a →
    List.Forall₂ (fun (t : Ts.Tok) w => t.value = some (.val w)) ts b → a = b
  | _, _, _, .nil, .nil => rfl
  | _, _, _, .cons h1 h2, .cons h3 h4 => by
    rw [h1] at h3
    cases h3
    rw [texts_unique h2 h4]

/-- The names of the tokens the Rust lexer makes of pieces. -/
theorem carries_names {ds : List (TokenDef × Hir)} {input : Str} : ∀ {out : List (Nat × Nat × List Char)}
    {ts : List Token} {ss : List Sym}, List.Forall₂ (Carries ds input) out ts →
    List.Forall₂ (fun t s => s ∈ g.tokens ∧ IsTerm s ∧ t.name = spelling s) (out.map (tokenOf ds)) ss →
    List.Forall₂ (fun t s => s ∈ g.tokens ∧ IsTerm s ∧ t.name = spelling s) ts ss
  | _, _, _, .nil, h => h
  | p :: out, t :: ts, ss, .cons h1 h2, h => by
    rw [List.map_cons] at h
    cases h with
    | cons g1 g2 =>
      obtain ⟨d, hir, e1, e2, _⟩ := h1
      refine .cons ⟨g1.1, g1.2.1, ?_⟩ (carries_names h2 g2)
      rw [e2, ← g1.2.2]
      simp [tokenOf, e1]

/-- C47.  On every input of supported characters shorter than the arithmetic tables,
for grammars without clashes of names and well typed mapping code: either `Lex`
reports the character at which the Rust lexer stops, or `Parse<Lex<input>>` yields a
list of tokens.  Then, unless the Rust lexer panics while slicing, which it only does if there
are characters above U+007F, `Parse` accepts
exactly when the Rust parser accepts the input in at most 50 iterations and exceeds
its depth exactly when the Rust parser has not stopped by then; and an accepted input
yields the value of the parse tree of the Rust parser over the pieces of the input. -/
theorem C47_pipeline (hE : Emitted hash rx ord ps start g l T max) (ho : Reorders ord) (hw : WellTyped S ps)
    (hh : NoHiding ps)
    {input : Str} (hcov : Covered max (LexGen.Tables.new l.lexer) input) (hlt : input.length < max)
    (hsup : ∀ c ∈ input, (LexGen.charCode c).isSome = true) :
    ((∃ ts, l.lexer.lex input = .ok ts) ∨ (l.lexer.lex input = .error .charBoundary ∧ ∃ c ∈ input, 128 ≤ c.toNat)) ∧
    ((∃ toks : List Ts.Tok, Ts.lex max LexGen.charCode (LexGen.Tables.new l.lexer) (Lex.lexFuel input) input =
        .tokens (toks.map some) ∧
      ((∃ ts, l.lexer.lex input = .ok ts) →
        ((∃ syms, Ts.parse max S T toks = .symbols syms) ↔ ∃ out, l.parse 50 input = .ok out) ∧
        (Ts.parse max S T toks = .exceeded ↔ l.parse 50 input = .error .outOfFuel)) ∧
      ∀ syms, Ts.parse max S T toks = .symbols syms → ∃ v f ds pieces dropped ws, syms = [.nonTerm start.name v] ∧
        Declares rx g ds ∧ Pieces ds 0 input pieces dropped ∧ pieces.map (pieceSym g ds) = ws.map some ∧
        IsTree g.prods start.name f ws ∧ Sentence (AstRule ps) start.name ws ∧
        Eval S ps f (pieces.map (·.2.2)) [v] ∧
        ((∃ ts, l.lexer.lex input = .ok ts) → l.parse 50 input = .ok f.post)) ∨
    ∃ i c, input[i]? = some c ∧
      Ts.lex max LexGen.charCode (LexGen.Tables.new l.lexer) (Lex.lexFuel input) input = .invalidSymbol c (some i) ∧
      ∀ st, l.lexer.lexLoop input (Lex.lexFuel input) ⟨[], 0, 0, 0, none⟩ = .ok st → st.forward = i) := by
  have hok := hE.gen.built.ok
  obtain ⟨hg, hx, _⟩ := new_ok hE.gen.new
  obtain ⟨ds, h1, h2⟩ := Grammar.lexer_ok hx
  have hD := Grammar.declares h1
  refine ⟨?_, ?_⟩
  · obtain ⟨_, cut, dropped, c0, _, _, _, hor⟩ := C13_terminates ho h2 input
    rcases hor with ⟨ts, h, _⟩ | ⟨h, c, hc, hl⟩
    · exact .inl ⟨ts, h⟩
    · exact .inr ⟨h, c, by rw [c0]; simp [hc], hl⟩
  obtain ⟨pieces, cut, dr, h5, _, a2, a3⟩ := C36_pieces_partial ho h2 hcov hsup
  rcases a3 with ⟨a3, _⟩ | ⟨i, c, _, a3, a4, a5⟩
  · left
    obtain ⟨hpm, hpl⟩ := pieces_mem h5
    obtain ⟨ss, e1, e2, e3, e4, e5⟩ := pieces_for hD hpm
    have hks : ∃ ks, Numbers g ks ss ∧ 0 ∉ ks ∧ ((∃ ts, l.lexer.lex input = .ok ts) →
        ∀ fuel, l.parse fuel input = Lalr.parseIdx g l.action l.goto fuel (ks ++ [0])) := by
      cases hl : l.lexer.lex input with
      | ok ts =>
        obtain ⟨ks, k1, k2, k3, k4⟩ := C32_convert_partial hE.gen.expr hE.gen.ast ho hx hE.kinds.1
          (carries_names ((a2 ts).mp hl) e3)
        refine ⟨ks, k1, k2, fun _ fuel => ?_⟩
        unfold Lalr.parse
        simp only [hl, k4, bind, Except.bind, snd_zip_append k3, hg]
      | error e =>
        obtain ⟨ks, k1, k2, _, _⟩ := C32_convert_partial hE.gen.expr hE.gen.ast ho hx hE.kinds.1 e3
        exact ⟨ks, k1, k2, by rintro ⟨ts, h⟩; cases h⟩
    obtain ⟨ks, k1, k2, hparse⟩ := hks
    have hfor : List.Forall₂ (TokenFor g) ((pieces.map (tokenOf ds)).map tsTok ++ [⟨"EOF".toList, none⟩]) (ss ++ [.eof]) :=
      Ts.forall₂_append e4 (.cons (.inl ⟨rfl, rfl⟩) .nil)
    have hnum : Numbers g (ks ++ [0]) (ss ++ [.eof]) := by
      unfold Numbers at k1 ⊢
      simp only [List.map_append, k1, List.map_cons, List.map_nil, hok.tok0]
    have hlen : ((pieces.map (tokenOf ds)).map tsTok ++ [(⟨"EOF".toList, none⟩ : Ts.Tok)]).length ≤ max := by
      simp; omega
    obtain ⟨p0, hp0⟩ : ∃ p0, Lalr.startState (ks ++ [0]) = .ok p0 := by
      cases ks with
      | nil => exact ⟨_, rfl⟩
      | cons a ks => exact ⟨_, rfl⟩
    refine ⟨(pieces.map (tokenOf ds)).map tsTok ++ [⟨"EOF".toList, none⟩], ?_, fun hts => ⟨?_, ?_⟩, ?_⟩
    · rw [a3]
      simp [tsTok]
    · obtain ⟨q1, _, _⟩ := C37_agrees_partial (S := S) hE hw hh hfor hnum hlen hp0
      rw [q1, hparse hts]
      unfold Lalr.parseIdx
      simp only [hp0, bind, Except.bind, pure, Except.pure]
      constructor
      · rintro ⟨n, st', h⟩
        rw [run_ok_iff.mpr ⟨n, h⟩]; exact ⟨_, rfl⟩
      · rintro ⟨out, h⟩
        cases hr : Lalr.run g l.action l.goto (ks ++ [0]) 50 p0 with
        | error e => rw [hr] at h; cases h
        | ok st' => obtain ⟨n, h⟩ := run_ok_iff.mp hr; exact ⟨n, st', h⟩
    · obtain ⟨_, q2, _⟩ := C37_agrees_partial (S := S) hE hw hh hfor hnum hlen hp0
      rw [q2, ← run_fuel_iff, hparse hts]
      unfold Lalr.parseIdx
      simp only [hp0, bind, Except.bind, pure, Except.pure]
      cases Lalr.run g l.action l.goto (ks ++ [0]) 50 p0 <;> simp
    · intro syms hs
      obtain ⟨v, f, n, ws, r1, r2, r3, r4, r5, r6, _, r7⟩ := C38_value_partial hE hfor hnum hlen hs
      have hn : n = ss.length := by
        have hn1 := (List.getElem?_eq_some_iff.mp r2).1
        simp only [List.length_append, List.length_cons, List.length_nil] at hn1
        by_contra hne
        rw [List.getElem?_append_left (by omega)] at r2
        exact e2 _ (List.mem_of_getElem? r2)
      subst hn
      have hl1 : ((pieces.map (tokenOf ds)).map tsTok).length = ss.length := e4.length_eq
      rw [List.take_left] at r3 r4
      rw [← hl1, List.take_left] at r5
      have := texts_unique r5 e5
      subst this
      exact ⟨v, f, ds, pieces, dr, ss, r1, hD, h5, e1, r3, r4, r6, fun hts => (hparse hts 50).trans r7⟩
  · exact .inr ⟨i, c, a3, a4, a5⟩

theorem scan_mem {toks : List (TokenDef × Hir)} {k : Nat} {input : List Char} {out : List (Nat × Nat × List Char)}
    {err : Option (Nat × Char)} (h : Scan toks k input out err) :
    (∀ p ∈ out, ∃ q, toks[p.2.1]? = some q ∧ Matches q.2 p.2.2) ∧ out.length ≤ input.length := by
  induction h with
  | done => simp
  | blank _ _ _ ih => exact ⟨ih.1, by simp; omega⟩
  | @tok k input w i rest out err h1 h2 h3 _ _ ih =>
    have : 0 < w.length := List.length_pos_iff.mpr h1.1
    refine ⟨?_, by rw [h3]; simp; omega⟩
    intro x hx
    rcases List.mem_cons.mp hx with rfl | hx
    · exact h2.1
    · exact ih.1 x hx
  | @tokEnd k input w i rest h1 h2 h3 _ =>
    have : 0 < w.length := List.length_pos_iff.mpr h1.1
    refine ⟨?_, by rw [h3]; simp; omega⟩
    intro x hx
    simp only [List.mem_cons, List.not_mem_nil, or_false] at hx
    subst hx
    exact h2.1
  | cut => simp
  | bad => simp

/-- `Parse` on the tokens of a cut of the text. -/
theorem pipeline_value (hE : Emitted hash rx ord ps start g l T max) (ho : Reorders ord) (hw : WellTyped S ps)
    (hh : NoHiding ps) (hc : NoCollisions hash g (Lalr.depthOf g))
    {ds : List (TokenDef × Hir)} (hd : Grammar.tokenDefs rx 0 g.tokens = .ok ds)
    {input : Str} (hlt : input.length < max) {out : List (Nat × Nat × List Char)} {err : Option (Nat × Char)}
    (hmem : (∀ p ∈ out, ∃ q, ds[p.2.1]? = some q ∧ Matches q.2 p.2.2) ∧ out.length ≤ input.length)
    (b3 : Ts.lex max LexGen.charCode (LexGen.Tables.new l.lexer) (Lex.lexFuel input) input =
        match err with
        | none => .tokens (out.map (fun p => some ⟨(tokenOf ds p).name, (tokenOf ds p).val.map .val⟩) ++
            [some ⟨"EOF".toList, none⟩])
        | some (i, c) => .invalidSymbol c (some i)) :
      ((∃ i c, err = some (i, c) ∧
        Ts.lex max LexGen.charCode (LexGen.Tables.new l.lexer) (Lex.lexFuel input) input = .invalidSymbol c (some i)) ∨
       (err = none ∧ ∃ (toks : List Ts.Tok) (ws : List Sym),
        Ts.lex max LexGen.charCode (LexGen.Tables.new l.lexer) (Lex.lexFuel input) input = .tokens (toks.map some) ∧
        toks = (out.map (tokenOf ds)).map tsTok ++ [⟨"EOF".toList, none⟩] ∧
        out.map (pieceSym g ds) = ws.map some ∧
        (∀ v, Ts.parse max S T toks = .symbols [.nonTerm start.name v] ↔
          ∃ f, IsTree g.prods start.name f ws ∧ KeptTree g f ∧ ws.length + f.post.length < 50 ∧
            Eval S ps f (out.map (·.2.2)) [v]) ∧
        ((∃ v, Ts.parse max S T toks = .symbols [.nonTerm start.name v]) ∨ Ts.parse max S T toks = .exceeded ∨
          (∃ a syms, Ts.parse max S T toks = .invalidToken a syms) ∨
          (Ts.parse max S T toks = .noGoto ∧ ¬ AllTransitions g l.states l.action l.goto)))) := by
  have hok := hE.gen.built.ok
  obtain ⟨hg, hx, _⟩ := new_ok hE.gen.new
  obtain ⟨ds', h1, h2⟩ := Grammar.lexer_ok hx
  obtain rfl : ds' = ds := Except.ok.inj (h1.symm.trans hd)
  have hD := Grammar.declares h1
  cases err with
  | some p => exact .inl ⟨p.1, p.2, rfl, b3⟩
  | none =>
    right
    refine ⟨rfl, ?_⟩
    obtain ⟨hpm, hpl⟩ := hmem
    obtain ⟨ss, e1, e2, e3, e4, e5⟩ := pieces_for hD hpm
    obtain ⟨ks, k1, k2, k3, k4⟩ := C32_convert_partial hE.gen.expr hE.gen.ast ho hx hE.kinds.1 e3
    have hfor : List.Forall₂ (TokenFor g) ((out.map (tokenOf ds')).map tsTok ++ [⟨"EOF".toList, none⟩]) (ss ++ [.eof]) :=
      Ts.forall₂_append e4 (.cons (.inl ⟨rfl, rfl⟩) .nil)
    have hnum : Numbers g (ks ++ [0]) (ss ++ [.eof]) := by
      unfold Numbers at k1 ⊢
      simp only [List.map_append, k1, List.map_cons, List.map_nil, hok.tok0]
    have hlen : ((out.map (tokenOf ds')).map tsTok ++ [(⟨"EOF".toList, none⟩ : Ts.Tok)]).length ≤ max := by
      simp; omega
    obtain ⟨p0, hp0⟩ : ∃ p0, Lalr.startState (ks ++ [0]) = .ok p0 := by
      cases ks with
      | nil => exact ⟨_, rfl⟩
      | cons a ks => exact ⟨_, rfl⟩
    have val : ∀ syms, Ts.parse max S T ((out.map (tokenOf ds')).map tsTok ++ [⟨"EOF".toList, none⟩]) = .symbols syms →
        ∃ v f, syms = [.nonTerm start.name v] ∧ IsTree g.prods start.name f ss ∧ KeptTree g f ∧ ss.length + f.post.length < 50 ∧
          Eval S ps f (out.map (·.2.2)) [v] := by
      intro syms hs
      obtain ⟨v, f, n, ws, r1, r2, r3, r4, r5, r6, r8, r7⟩ := C38_value_partial hE hfor hnum hlen hs
      have hn : n = ss.length := by
        have hn1 := (List.getElem?_eq_some_iff.mp r2).1
        simp only [List.length_append, List.length_cons, List.length_nil] at hn1
        by_contra hne
        rw [List.getElem?_append_left (by omega)] at r2
        exact e2 _ (List.mem_of_getElem? r2)
      subst hn
      have hl1 : ((out.map (tokenOf ds')).map tsTok).length = ss.length := e4.length_eq
      rw [List.take_left] at r3 r4
      rw [← hl1, List.take_left] at r5
      have := texts_unique r5 e5
      subst this
      exact ⟨v, f, r1, r3, (C66_tree hE.gen.built hc r3 k1 []).1.mp ⟨50, r7⟩, r8, r6⟩
    refine ⟨(out.map (tokenOf ds')).map tsTok ++ [⟨"EOF".toList, none⟩], ss, ?_, rfl, e1, fun v => ⟨fun hp => ?_, ?_⟩, ?_⟩
    · rw [b3]
      simp [tsTok]
    · obtain ⟨v', f, r1, r2⟩ := val _ hp
      simp only [List.cons.injEq, Ts.Symb.nonTerm.injEq, true_and, and_true] at r1
      subst r1
      exact ⟨f, r2⟩
    · rintro ⟨f, t1, t0, t2, t3⟩
      obtain ⟨q1, _, _⟩ := C37_agrees_partial (S := S) hE hw hh hfor hnum hlen hp0
      have hrun := (C66_tree hE.gen.built hc t1 k1 []).2 t0 50 t2
      have hacc : ∃ n st', n < 50 ∧ Runs g l.action l.goto (ks ++ [0]) n p0 st' ∧
          Lalr.step g l.action l.goto (ks ++ [0]) st' = .ok none := by
        unfold Lalr.parseIdx at hrun
        simp only [hp0, bind, Except.bind, pure, Except.pure] at hrun
        cases hr : Lalr.run g l.action l.goto (ks ++ [0]) 50 p0 with
        | error e => rw [hr] at hrun; cases hrun
        | ok st' => obtain ⟨n, h⟩ := run_ok_iff.mp hr; exact ⟨n, st', h⟩
      obtain ⟨syms, hs⟩ := q1.mpr hacc
      obtain ⟨v', f', r1, r2, r0, r3, r4⟩ := val _ hs
      obtain rfl := C66_unique hE.gen.built hc t1 r2 t0 r0
      have := C38_unique t3 r4
      simp only [List.cons.injEq, and_true] at this
      subst this
      rw [hs, r1]
    · obtain ⟨look, hT, hAg⟩ := parse_agree (S := S) hE hfor hnum hlen hp0
      generalize hr : Ts.parse max S T _ = r at hAg
      generalize he : Lalr.run g l.action l.goto (ks ++ [0]) 50 p0 = e at hAg
      rcases hAg with ⟨rfl, _⟩ | ⟨_, _, _, syms, _, _, _, _, _, _, _, _, rfl⟩ | ⟨_, a, sy, rfl⟩ | ⟨rfl, rfl⟩ | ⟨h, _⟩
      · exact .inr (.inl rfl)
      · obtain ⟨v, _, rfl, _⟩ := val _ hr
        exact .inl ⟨v, rfl⟩
      · exact .inr (.inr (.inl ⟨a, sy, rfl⟩))
      · refine .inr (.inr (.inr ⟨rfl, ?_⟩))
        have hpi : Lalr.parseIdx g l.action l.goto 50 (ks ++ [0]) = .error .gotoEmpty := by
          unfold Lalr.parseIdx
          simp only [hp0, bind, Except.bind, he]
        rcases C31_failures hE.gen.built (by simp) hpi with h | h | ⟨_, h⟩
        · cases h
        · cases h
        · exact h
      · exact absurd ⟨hw, hh⟩ h

/-- C54, given atoms as ranges and no void regexes: on supported characters, the type-level pipeline
computes the value of the text.  The text is cut by maximal munch, in one way only.  Either a
character makes the cut impossible, and `Lex` reports it; or `Parse<Lex<input>>` is the single
start symbol with value `v` exactly if the cut has a parse tree of value `v`, of fewer than 50
leaves and nodes, along which no transition is dropped (`C66_all`: if the tables have every
transition, none is); in all other cases it reports an invalid token, that the depth is exceeded
or, if the tables lack a transition, that there is no goto.
Missing: pieces that do not fit the ranges (`C33_false`). -/
theorem C54_value_partial (hE : Emitted hash rx ord ps start g l T max) (ho : Reorders ord) (hw : WellTyped S ps)
    (hh : NoHiding ps) (hc : NoCollisions hash g (Lalr.depthOf g))
    {ds : List (TokenDef × Hir)} (hd : Grammar.tokenDefs rx 0 g.tokens = .ok ds)
    (ha : AtomsOk (ds.map Prod.snd)) (hv : ∀ p ∈ ds, NonVoid p.2)
    {input : Str} (hcov : Covered max (LexGen.Tables.new l.lexer) input) (hlt : input.length < max)
    (hsup : ∀ c ∈ input, (LexGen.charCode c).isSome = true) :
    ∃ out err, Scan ds 0 input out err ∧
      (∀ out' err', Scan ds 0 input out' err' → out' = out ∧ err' = err) ∧
      ((∃ i c, err = some (i, c) ∧
        Ts.lex max LexGen.charCode (LexGen.Tables.new l.lexer) (Lex.lexFuel input) input = .invalidSymbol c (some i)) ∨
       (err = none ∧ ∃ (toks : List Ts.Tok) (ws : List Sym),
        Ts.lex max LexGen.charCode (LexGen.Tables.new l.lexer) (Lex.lexFuel input) input = .tokens (toks.map some) ∧
        toks = (out.map (tokenOf ds)).map tsTok ++ [⟨"EOF".toList, none⟩] ∧
        out.map (pieceSym g ds) = ws.map some ∧
        (∀ v, Ts.parse max S T toks = .symbols [.nonTerm start.name v] ↔
          ∃ f, IsTree g.prods start.name f ws ∧ KeptTree g f ∧ ws.length + f.post.length < 50 ∧
            Eval S ps f (out.map (·.2.2)) [v]) ∧
        ((∃ v, Ts.parse max S T toks = .symbols [.nonTerm start.name v]) ∨ Ts.parse max S T toks = .exceeded ∨
          (∃ a syms, Ts.parse max S T toks = .invalidToken a syms) ∨
          (Ts.parse max S T toks = .noGoto ∧ ¬ AllTransitions g l.states l.action l.goto)))) := by
  obtain ⟨_, hx, _⟩ := new_ok hE.gen.new
  obtain ⟨ds', h1, h2⟩ := Grammar.lexer_ok hx
  obtain rfl : ds' = ds := Except.ok.inj (h1.symm.trans hd)
  obtain ⟨out, err, b1, b2, b3⟩ := C36_text_partial ho h2 ha hv hcov hsup
  exact ⟨out, err, b1, b2, pipeline_value hE ho hw hh hc hd hlt (scan_mem b1) b3⟩

end

-- C47: the hypotheses for `x ab`, and its value.
example : Emitted id wordRx (fun _ l => l) wordAst (startOf wordAst) (lower wordAst) wordL wordT 5000 ∧
    Reorders (fun _ l => l) ∧ WellTyped textSem wordAst ∧ NoHiding wordAst ∧ Covered 5000 (LexGen.Tables.new wordL.lexer) " x ab".toList ∧
    " x ab".toList.length < 5000 ∧ (∀ c ∈ " x ab".toList, (LexGen.charCode c).isSome = true) ∧
    Ts.lex 5000 LexGen.charCode (LexGen.Tables.new wordL.lexer) (Lex.lexFuel " x ab".toList) " x ab".toList =
      .tokens (wordToks.map some) ∧
    Ts.parse 5000 textSem wordT wordToks = .symbols [.nonTerm "S".toList "w(w=r(r=ab;);)".toList] := by
  rw [charCode_fun]
  exact ⟨word_emitted, reorders_id, word_typed, word_noHiding, by decide +kernel, by decide, by decide +kernel,
    by decide +kernel, by decide +kernel⟩

-- C54: the hypotheses for `x ab`, the cut, the tree and the value.
example : Emitted id wordRx (fun _ l => l) wordAst (startOf wordAst) (lower wordAst) wordL wordT 5000 ∧
    Reorders (fun _ l => l) ∧ WellTyped textSem wordAst ∧ NoHiding wordAst ∧
    AllTransitions (lower wordAst) wordL.states wordL.action wordL.goto ∧
    Grammar.tokenDefs wordRx 0 (lower wordAst).tokens = .ok wordDefs ∧ AtomsOk (wordDefs.map Prod.snd) ∧
    (∀ p ∈ wordDefs, NonVoid p.2) ∧ Covered 5000 (LexGen.Tables.new wordL.lexer) " x ab".toList ∧
    " x ab".toList.length < 5000 ∧ (∀ c ∈ " x ab".toList, (LexGen.charCode c).isSome = true) ∧
    [(1, 0, "x".toList), (3, 2, "ab".toList)].map (pieceSym (lower wordAst) wordDefs) =
      [Sym.strLit "x".toList, .regex "[a-w]+".toList].map some ∧
    IsTree (lower wordAst).prods "S".toList
      (.node 1 (.leaf (.strLit "x".toList) (.node 3 (.leaf (.regex "[a-w]+".toList) .nil) .nil)) .nil)
      [.strLit "x".toList, .regex "[a-w]+".toList] ∧
    Eval textSem wordAst (.node 1 (.leaf (.strLit "x".toList) (.node 3 (.leaf (.regex "[a-w]+".toList) .nil) .nil)) .nil)
      ["x".toList, "ab".toList] ["w(w=r(r=ab;);)".toList] := by
  have b1 : bodyOf wordAst 1 = some ⟨[.strLit "x".toList, .named (some "w".toList) (.nonTerm "W".toList)], "w".toList⟩ := rfl
  have b3 : bodyOf wordAst 3 = some ⟨[.named (some "r".toList) (.regex "[a-w]+".toList)], "r".toList⟩ := rfl
  rw [charCode_fun]
  refine ⟨word_emitted, reorders_id, word_typed, word_noHiding, word_transitions, word_defs, word_atoms, word_nonVoid,
    by decide +kernel, by decide, by decide +kernel, by decide +kernel, ⟨⟨⟨_, rfl, rfl⟩, ⟨trivial, ⟨_, rfl, rfl⟩, ⟨trivial, trivial⟩, trivial⟩, trivial⟩, rfl, rfl⟩, ?_⟩
  have h3 : Eval textSem wordAst (.node 3 (.leaf (.regex "[a-w]+".toList) .nil) .nil) ["ab".toList] ["r(r=ab;)".toList] :=
    .node b3 (.leaf .nil) rfl .nil
  exact .node (kvs := ["x".toList, "r(r=ab;)".toList]) (ws2 := []) b1 (.leaf h3) rfl .nil

end Verif.Props
