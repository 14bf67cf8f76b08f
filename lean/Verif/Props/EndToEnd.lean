import Verif.Proofs.TokensOk
import Verif.Props.Lexer
import Verif.Props.Parse

/-! # Properties from text to tree (C32, C33) -/

namespace Verif.Props
open Verif Spec

section
variable {ps : List Ast.Prod} {g : Grammar} {rx : Str → Option Hir} {ord : Nfa.Order} {lx : Lex}

/-! ## C32 -/

/-- C32, when no literal is spelled like a regex: tokens named after terminals get
the numbers of those terminals, followed by one end marker.
Missing: equal spellings (`C32_false`). -/
theorem C32_convert_partial (he : Expressible ps) (hg : Grammar.fromAst ps = .ok g) (ho : Reorders ord)
    (h : g.lexer rx ord = .ok lx) (hds : DistinctSpellings g) {ts : List Token} {ss : List Sym}
    (hts : List.Forall₂ (fun t s => s ∈ g.tokens ∧ IsTerm s ∧ t.name = spelling s) ts ss) :
    ∃ ks, Numbers g ks ss ∧ 0 ∉ ks ∧ ks.length = ts.length ∧
      lx.convertTokens ts = .ok (ts.zip ks ++ [(⟨"EOF".toList, none⟩, 0)]) := by
  obtain ⟨ks, h1, h2, h3, h4⟩ := Lex.convert_spec (reorders_ok ho) (Grammar.gok_of_fromAst he hg) h hds hts
  exact ⟨ks, h1, h2, h4, h3⟩

/-- C32 for the output of the lexer: each token gets the number of the terminal
that matched its piece of the input. -/
theorem C32_lexed_partial (he : Expressible ps) (hg : Grammar.fromAst ps = .ok g) (ho : Reorders ord)
    (h : g.lexer rx ord = .ok lx) (hds : DistinctSpellings g) {input : Str} {ts : List Token}
    (hl : lx.lex input = .ok ts) :
    ∃ ds pieces dropped ws ks, Declares rx g ds ∧ Pieces ds 0 input pieces dropped ∧
      pieces.map (pieceSym g ds) = ws.map some ∧ Numbers g ks ws ∧ 0 ∉ ks ∧ ks.length = ts.length ∧
      lx.convertTokens ts = .ok (ts.zip ks ++ [(⟨"EOF".toList, none⟩, 0)]) := by
  obtain ⟨ds, h1, h2⟩ := Grammar.lexer_ok h
  obtain ⟨N, acc, al, D, s0, M⟩ := Lex.fromTokens_made (reorders_ok ho) h2
  obtain ⟨out, dr, h3, h4⟩ := Lex.lex_run lx input
  obtain ⟨out', h5, h6⟩ := M.pieces input h3
  rw [h4, h6] at hl
  obtain ⟨ss, h7, h8⟩ := Lex.piece_syms (Grammar.declares h1) (Lex.expected_names hl)
    fun p hp => by obtain ⟨_, _, _, _, _, q, hq, _⟩ := Lex.pieces_where h5 p hp; exact ⟨q, hq⟩
  obtain ⟨ks, g1, g2, g3, g4⟩ := C32_convert_partial he hg ho h hds h8
  exact ⟨ds, out', dr, ss, ks, Grammar.declares h1, h5, h7, g1, g2, g3, g4⟩

/-! ## C33 -/

theorem new_ok {H : Type} [DecidableEq H] {hash : List Item → H} {l : Lalr} (h : Lalr.new hash rx ord g = .ok l) :
    l.grammar = g ∧ g.lexer rx ord = .ok l.lexer ∧
      Lalr.makeTables hash g (Lalr.depthOf g) = .ok (l.action, l.goto, l.states) := by
  unfold Lalr.new at h
  cases h1 : g.lexer rx ord with
  | error e => simp [h1, bind, Except.bind] at h
  | ok lx =>
    cases h2 : Lalr.makeTables hash g (Lalr.depthOf g) with
    | error e => simp [h1, h2, bind, Except.bind] at h
    | ok r =>
      obtain ⟨a, t, s⟩ := r
      simp only [h1, h2, bind, Except.bind, pure, Except.pure, Except.ok.injEq] at h
      subst h
      exact ⟨rfl, rfl, rfl⟩

/-- `Lalr::new` has succeeded. -/
structure Generated {H : Type} [DecidableEq H] (hash : List Item → H) (rx : Str → Option Hir) (ord : Nfa.Order)
    (ps : List Ast.Prod) (start : Ast.Prod) (g : Grammar) (l : Lalr) : Prop where
  expr : Expressible ps
  first : ps.find? (fun p => p.isStart) = some start
  ast : Grammar.fromAst ps = .ok g
  new : Lalr.new hash rx ord g = .ok l

variable {H : Type} [DecidableEq H] {hash : List Item → H} {start : Ast.Prod} {l : Lalr}

theorem Generated.built (hG : Generated hash rx ord ps start g l) :
    Built hash ps start g (Lalr.depthOf g) l.action l.goto l.states :=
  ⟨hG.expr, hG.first, hG.ast, (new_ok hG.new).2.2⟩

theorem snd_zip_append {ts : List Token} {ks : List Nat} (h : ks.length = ts.length) (e : Token) :
    (ts.zip ks ++ [(e, 0)]).map Prod.snd = ks ++ [0] := by
  rw [List.map_append, List.map_snd_zip (by omega)]; rfl

theorem eof_split {w rest ks : List Nat} (h : ks ++ [0] = w ++ 0 :: rest) (h0 : 0 ∉ ks) : w = ks ∧ rest = [] := by
  induction w generalizing ks with
  | nil =>
    cases ks with
    | nil => simp_all
    | cons k ks => simp at h h0; omega
  | cons a w ih =>
    cases ks with
    | nil => simp at h
    | cons k ks =>
      simp only [List.cons_append, List.cons.injEq] at h
      obtain ⟨e1, e2⟩ := ih h.2 (by simp_all)
      exact ⟨by rw [h.1, e1], e2⟩

theorem parse_ok (hG : Generated hash rx ord ps start g l) {fuel : Nat} {input : Str}
    {out : List Nat} (hp : l.parse fuel input = .ok out) {ws : List Sym} {ks : List Nat} (h0 : 0 ∉ ks)
    (hk : Numbers g ks ws) {ts : List Token} (hl : l.lexer.lex input = .ok ts) (hlen : ks.length = ts.length)
    (hc : l.lexer.convertTokens ts = .ok (ts.zip ks ++ [(⟨"EOF".toList, none⟩, 0)])) :
    Sentence (AstRule ps) start.name ws ∧ ∃ f, IsTree g.prods start.name f ws ∧ f.post = out := by
  obtain ⟨hg, _, _⟩ := new_ok hG.new
  unfold Lalr.parse at hp
  simp only [hl, hc, bind, Except.bind, snd_zip_append hlen, hg] at hp
  obtain ⟨w, rest, ws', f, e1, e2, e3, e4, e5⟩ := C27_sound hG.built hp
  obtain ⟨rfl, rfl⟩ := eof_split e1 h0
  have : ws' = ws := by
    have := e2.symm.trans hk
    exact (List.map_inj_right (fun _ _ => Option.some.inj)).mp this
  subst this
  exact ⟨e3, f, e4, e5⟩

theorem parse_lexed {fuel : Nat} {input : Str} {out : List Nat} (hp : l.parse fuel input = .ok out) :
    ∃ ts, l.lexer.lex input = .ok ts := by
  unfold Lalr.parse at hp
  cases hl : l.lexer.lex input with
  | error e => simp [hl, bind, Except.bind] at hp
  | ok ts => exact ⟨ts, rfl⟩

/-- C33, for every grammar with distinct spellings and every input: accepted text
is, but for blanks and a dropped rest, a sequence of strings of terminals that form
a sentence, and the reductions are those of a parse tree. -/
theorem C33_sentence (hG : Generated hash rx ord ps start g l) (ho : Reorders ord) (hds : DistinctSpellings g)
    {fuel : Nat} {input : Str} {out : List Nat} (hp : l.parse fuel input = .ok out) :
    ∃ ds pieces dropped ws f, Declares rx g ds ∧ Pieces ds 0 input pieces dropped ∧
      pieces.map (pieceSym g ds) = ws.map some ∧ Sentence (AstRule ps) start.name ws ∧
      IsTree g.prods start.name f ws ∧ f.post = out := by
  obtain ⟨ts, hl⟩ := parse_lexed hp
  obtain ⟨hg, hx, _⟩ := new_ok hG.new
  obtain ⟨ds, out', dr, ss, ks, e1, e2, e3, e4, e5, e6, e7⟩ := C32_lexed_partial hG.expr hG.ast ho hx hds hl
  obtain ⟨e8, f, e9, e10⟩ := parse_ok hG hp e5 e4 hl e6 e7
  exact ⟨ds, out', dr, ss, f, e1, e2, e3, e8, e9, e10⟩

/-- C33, when the pieces of the alphabet fit the ranges (`AtomsOk`): the pieces are those of maximal
munch.  Missing: pieces that do not fit the ranges (`C33_false`). -/
theorem C33_maximal_munch_partial (hG : Generated hash rx ord ps start g l) (ho : Reorders ord)
    (hds : DistinctSpellings g)
    {ds : List (TokenDef × Hir)} (hd : Grammar.tokenDefs rx 0 g.tokens = .ok ds)
    (ha : AtomsOk (ds.map Prod.snd)) (hv : ∀ p ∈ ds, NonVoid p.2) {fuel : Nat} {input : Str} {out : List Nat} (hp : l.parse fuel input = .ok out) :
    ∃ pieces dropped ws f, Declares rx g ds ∧ Lexes ds 0 input pieces dropped ∧
      pieces.map (pieceSym g ds) = ws.map some ∧ Sentence (AstRule ps) start.name ws ∧
      IsTree g.prods start.name f ws ∧ f.post = out := by
  obtain ⟨ts, hl⟩ := parse_lexed hp
  obtain ⟨hg, hx, _⟩ := new_ok hG.new
  obtain ⟨ds', h1, h2⟩ := Grammar.lexer_ok hx
  obtain rfl : ds' = ds := Except.ok.inj (h1.symm.trans hd)
  have hD := Grammar.declares h1
  obtain ⟨N, acc, al, D, s0, M⟩ := Lex.fromTokens_made (reorders_ok ho) h2
  obtain ⟨out1, dr, h3, h4⟩ := Lex.lex_run l.lexer input
  obtain ⟨out', h5, h6⟩ := M.lexes (made_disjoint M ha) hv input h3
  have hl' := hl
  rw [h4, h6] at hl'
  obtain ⟨ss, h7, h8⟩ := Lex.piece_syms hD (Lex.expected_names hl')
    fun p hp => by
      obtain ⟨_, _, _, _, _, q, hq, _⟩ := Lex.pieces_where (Lex.lexes_pieces h5) p hp; exact ⟨q, hq⟩
  obtain ⟨ks, g1, g2, g3, g4⟩ := C32_convert_partial hG.expr hG.ast ho hx hds h8
  obtain ⟨e8, f, e9, e10⟩ := parse_ok hG hp g2 g1 hl g3 g4
  exact ⟨out', dr, ss, f, hD, h5, h7, e8, e9, e10⟩

/-- The converse of C33 on ASCII text, when the tables have every transition and
the pieces of the alphabet fit the ranges: text whose maximal munch tokens form a sentence is
accepted, with the reductions of its parse tree. -/
theorem C33_accepts_partial (hG : Generated hash rx ord ps start g l) (ho : Reorders ord)
    (hds : DistinctSpellings g) (hc : NoCollisions hash g (Lalr.depthOf g)) (hA : AllTransitions g l.states l.action l.goto)
    {ds : List (TokenDef × Hir)} (hd : Grammar.tokenDefs rx 0 g.tokens = .ok ds)
    (ha : AtomsOk (ds.map Prod.snd)) (hv : ∀ p ∈ ds, NonVoid p.2) {input : Str} (hasc : ∀ c ∈ input, c.toNat < 128) :
    ∃ pieces dropped, Declares rx g ds ∧ Lexes ds 0 input pieces dropped ∧
      ∀ ws, pieces.map (pieceSym g ds) = ws.map some → Sentence (AstRule ps) start.name ws →
        ∃ f, IsTree g.prods start.name f ws ∧
          ∀ fuel, ws.length + f.post.length < fuel → l.parse fuel input = .ok f.post := by
  obtain ⟨hg, hx, _⟩ := new_ok hG.new
  obtain ⟨ds', h1, h2⟩ := Grammar.lexer_ok hx
  obtain rfl : ds' = ds := Except.ok.inj (h1.symm.trans hd)
  have hD := Grammar.declares h1
  obtain ⟨N, acc, al, D, s0, M⟩ := Lex.fromTokens_made (reorders_ok ho) h2
  obtain ⟨out1, dr, h3, h4⟩ := Lex.lex_run l.lexer input
  obtain ⟨out', h5, h6⟩ := M.lexes (made_disjoint M ha) hv input h3
  refine ⟨out', dr, hD, h5, fun ws hws hS => ?_⟩
  have hl := h4
  rw [h6, Lex.expected_ascii hasc (Lex.lexes_pieces h5)] at hl
  have hexp := Lex.expected_ascii hasc (Lex.lexes_pieces h5)
  obtain ⟨ss, h7, h8⟩ := Lex.piece_syms hD (Lex.expected_names hexp)
    fun p hp => by
      obtain ⟨_, _, _, _, _, q, hq, _⟩ := Lex.pieces_where (Lex.lexes_pieces h5) p hp; exact ⟨q, hq⟩
  have : ss = ws := (List.map_inj_right (fun _ _ => Option.some.inj)).mp (h7.symm.trans hws)
  subst this
  obtain ⟨ks, g1, g2, g3, g4⟩ := C32_convert_partial hG.expr hG.ast ho hx hds h8
  obtain ⟨f, e1, e2⟩ := C28_complete_partial hG.built hc hA hS g1
  refine ⟨f, e1, fun fuel hf => ?_⟩
  have := e2 [] fuel hf
  unfold Lalr.parse
  simp only [hl, g4, bind, Except.bind, snd_zip_append g3, hg]
  exact this

/-- The text is cut by maximal munch and the parser runs on the numbers of the pieces. -/
theorem parse_cut (hG : Generated hash rx ord ps start g l) (ho : Reorders ord) (hds : DistinctSpellings g)
    {ds : List (TokenDef × Hir)} (hd : Grammar.tokenDefs rx 0 g.tokens = .ok ds)
    (ha : AtomsOk (ds.map Prod.snd)) (hv : ∀ p ∈ ds, NonVoid p.2) (input : Str) :
    ∃ pieces cut dropped ws, Declares rx g ds ∧ input = cut ++ dropped ∧ Lexes ds 0 input pieces dropped ∧
      pieces.map (pieceSym g ds) = ws.map some ∧
      (((¬ ∃ ts, List.Forall₂ (Carries ds input) pieces ts) ∧ (∃ c ∈ cut, 128 ≤ c.toNat) ∧
        ∀ fuel, l.parse fuel input = .error .charBoundary) ∨
       (∃ ts, List.Forall₂ (Carries ds input) pieces ts) ∧ ∃ ks, Numbers g ks ws ∧ 0 ∉ ks ∧ ks.length = ws.length ∧
        ∀ fuel, l.parse fuel input = Lalr.parseIdx g l.action l.goto fuel (ks ++ 0 :: [])) := by
  obtain ⟨hg, hx, _⟩ := new_ok hG.new
  obtain ⟨ds', h1, h2⟩ := Grammar.lexer_ok hx
  obtain rfl : ds' = ds := Except.ok.inj (h1.symm.trans hd)
  have hD := Grammar.declares h1
  obtain ⟨N, acc, al, D, s0, M⟩ := Lex.fromTokens_made (reorders_ok ho) h2
  obtain ⟨out1, dr, h3, h4⟩ := Lex.lex_run l.lexer input
  obtain ⟨out', h5, h6⟩ := M.lexes (made_disjoint M ha) hv input h3
  have hq : ∀ p ∈ out', ∃ q, ds'[p.2.1]? = some q := fun p hp => by
    obtain ⟨_, _, _, _, _, q, hq, _⟩ := Lex.pieces_where (Lex.lexes_pieces h5) p hp; exact ⟨q, hq⟩
  have hws : ∃ ws : List Sym, out'.map (pieceSym g ds') = ws.map some := by
    clear h5 h6
    induction out' with
    | nil => exact ⟨[], rfl⟩
    | cons p out' ih =>
      obtain ⟨ws, hws⟩ := ih fun p hp => hq p (by simp [hp])
      obtain ⟨q, h7⟩ := hq p (by simp)
      obtain ⟨s, k, e1, _, e3, _⟩ := hD.each q (List.mem_of_getElem? h7)
      exact ⟨s :: ws, by simp [pieceSym, h7, e3, e1, hws]⟩
  obtain ⟨ws, hws⟩ := hws
  obtain ⟨a, h0, _⟩ := Lex.pieces_split (Lex.lexes_pieces h5)
  refine ⟨out', a, dr, ws, hD, h0, h5, hws, ?_⟩
  have hcar : ∀ ts, l.lexer.lex input = .ok ts ↔ List.Forall₂ (Carries ds' input) out' ts := fun ts => by
    rw [h4, h6, Lex.mapM_iff]
    simp only [Lex.expected_iff]
  have hor : (∃ ts, l.lexer.lex input = .ok ts ∧ ts.length = out'.length) ∨
      (l.lexer.lex input = .error .charBoundary ∧ ∃ c ∈ a, 128 ≤ c.toNat) := by
    rw [h4, h6]
    by_cases hasc : ∀ c ∈ a, c.toNat < 128
    · refine .inl ⟨_, Lex.expected_ascii' (Lex.lexes_pieces h5) fun b hb => ?_, by simp⟩
      rw [List.append_cancel_right (h0.symm.trans hb)] at hasc
      exact hasc
    · have hex : ∃ c ∈ a, 128 ≤ c.toNat := by
        simp only [not_forall, not_lt] at hasc
        obtain ⟨c, hc, hl⟩ := hasc
        exact ⟨c, hc, hl⟩
      rcases Lex.expected_or (toks := ds') (input := input) (out := out') hq with h | h
      · exact .inl h
      · exact .inr ⟨h, hex⟩
  rcases hor with ⟨ts, hl, _⟩ | ⟨hl, hna⟩
  · right
    have hexp := hl
    rw [h4, h6] at hexp
    obtain ⟨ss, h7, h8⟩ := Lex.piece_syms hD (Lex.expected_names hexp) hq
    have : ss = ws := (List.map_inj_right (fun _ _ => Option.some.inj)).mp (h7.symm.trans hws)
    subst this
    obtain ⟨ks, g1, g2, g3, g4⟩ := C32_convert_partial hG.expr hG.ast ho hx hds h8
    have hlen : ks.length = ss.length := by simpa using congrArg List.length g1
    refine ⟨⟨ts, (hcar ts).mp hl⟩, ks, g1, g2, hlen, fun fuel => ?_⟩
    unfold Lalr.parse
    simp only [hl, g4, bind, Except.bind, snd_zip_append g3, hg]
  · left
    refine ⟨fun ⟨ts, h⟩ => (by rw [(hcar ts).mpr h] at hl; cases hl), hna, fun fuel => ?_⟩
    unfold Lalr.parse
    simp only [hl, bind, Except.bind]

/-- C33, as a decision: the text is cut by maximal munch, and within a bound on the number of
iterations the parser accepts exactly if the cut is a sentence, and reports an invalid token
otherwise; it panics while slicing just when the position and length of a piece with a value, counted in
characters, are not the bounds in bytes of a text, and then the part that is cut is not ASCII.
Missing: pieces that do not fit the ranges (`C33_false`), tables with dropped transitions (`C28_false`), colliding hashes (`C62_false`). -/
theorem C33_decides_partial (hG : Generated hash rx ord ps start g l) (ho : Reorders ord)
    (hds : DistinctSpellings g) (hc : NoCollisions hash g (Lalr.depthOf g)) (hA : AllTransitions g l.states l.action l.goto)
    {ds : List (TokenDef × Hir)} (hd : Grammar.tokenDefs rx 0 g.tokens = .ok ds)
    (ha : AtomsOk (ds.map Prod.snd)) (hv : ∀ p ∈ ds, NonVoid p.2) (input : Str) :
    ∃ pieces cut dropped ws, Declares rx g ds ∧ input = cut ++ dropped ∧ Lexes ds 0 input pieces dropped ∧
      pieces.map (pieceSym g ds) = ws.map some ∧
      (((¬ ∃ ts, List.Forall₂ (Carries ds input) pieces ts) ∧ (∃ c ∈ cut, 128 ≤ c.toNat) ∧
        ∀ fuel, l.parse fuel input = .error .charBoundary) ∨
       (∃ ts, List.Forall₂ (Carries ds input) pieces ts) ∧ ∀ fuel, (2 * ws.length + 1) * (g.prods.length + 1) ≤ fuel →
        (Sentence (AstRule ps) start.name ws →
          ∃ f, IsTree g.prods start.name f ws ∧ l.parse fuel input = .ok f.post) ∧
        (¬ Sentence (AstRule ps) start.name ws → l.parse fuel input = .error .invalidToken)) := by
  obtain ⟨pieces, cut, dropped, ws, h1, h2, h3, h4, h5⟩ := parse_cut hG ho hds hd ha hv input
  refine ⟨pieces, cut, dropped, ws, h1, h2, h3, h4, h5.imp_right ?_⟩
  rintro ⟨hts, ks, k1, k2, k3, k4⟩
  refine ⟨hts, fun fuel hf => ?_⟩
  have := C52_decides_partial hG.built hc hA k2 k1 (rest := []) (fuel := fuel) (by rw [k3]; exact hf)
  rw [k4]
  exact this

end

/-! ## Sample -/

/-- `S → "x" W | "y"`, `W → /[a-w]+/`. -/
def wordAst : List Ast.Prod :=
  [⟨"S".toList, [⟨[.strLit "x".toList, .named (some "w".toList) (.nonTerm "W".toList)], "w".toList⟩,
      ⟨[.strLit "y".toList], "1".toList⟩], true, "T".toList⟩,
   ⟨"W".toList, [⟨[.named (some "r".toList) (.regex "[a-w]+".toList)], "r".toList⟩], false, "string".toList⟩]

/-- The regex crate on the one regex of `wordAst`. -/
def wordRx (s : Str) : Option Hir := if s = "[a-w]+".toList then some (.rep .oneOrMore (.cls [(97, 119)])) else none

/-- The generated parser. -/
def wordL : Lalr := (Lalr.new id wordRx (fun _ l => l) (lower wordAst)).toOption.getD ⟨⟨[], [], [], []⟩, ⟨⟨[], [], [], []⟩, [], []⟩, [], [], []⟩

theorem word_expressible : Expressible wordAst := expressibleB_sound (by decide +kernel)

theorem word_generated : Generated id wordRx (fun _ l => l) wordAst (startOf wordAst) (lower wordAst) wordL :=
  ⟨word_expressible, startOf_eq (by decide +kernel), ok_of_isSome (by decide +kernel),
    ok_of_isSome (by decide +kernel)⟩

theorem word_tokens : (lower wordAst).tokens =
    [.eof, .strLit "x".toList, .strLit "y".toList, .nonTerm "S".toList, .nonTerm "W".toList, .regex "[a-w]+".toList] := by decide +kernel

theorem word_distinct : DistinctSpellings (lower wordAst) := by
  unfold DistinctSpellings
  rw [word_tokens]
  intro s hs t ht h1 h2 h3
  simp only [List.mem_cons, List.not_mem_nil, or_false] at hs ht
  rcases hs with rfl | rfl | rfl | rfl | rfl | rfl <;> rcases ht with rfl | rfl | rfl | rfl | rfl | rfl <;>
    first | rfl | exact False.elim h1 | exact False.elim h2 | (revert h3; decide)

/-- The lexer tokens of `wordAst`. -/
def wordDefs : List (TokenDef × Hir) :=
  [(⟨"x".toList, true, some 1⟩, .lit 120), (⟨"y".toList, true, some 2⟩, .lit 121), (⟨"[a-w]+".toList, true, some 5⟩, .rep .oneOrMore (.cls [(97, 119)]))]

theorem word_defs : Grammar.tokenDefs wordRx 0 (lower wordAst).tokens = .ok wordDefs := by
  rw [word_tokens]; rfl

theorem word_atoms : AtomsOk (wordDefs.map Prod.snd) :=
  atomsOk_of (al := [⟨97, 120⟩, ⟨120, 121⟩, ⟨121, 122⟩]) rfl (by decide +kernel)

theorem word_nonVoid : ∀ p ∈ wordDefs, NonVoid p.2 := by
  intro p hp
  simp only [wordDefs, List.mem_cons, List.not_mem_nil, or_false] at hp
  rcases hp with rfl | rfl | rfl
  · exact .lit 'x'
  · exact .lit 'y'
  · refine .rep (.cls (by simp) ?_)
    intro r hr
    simp only [List.mem_cons, List.not_mem_nil, or_false] at hr
    subst hr
    exact ⟨'a', by decide, by decide⟩

theorem word_transitions : AllTransitions (lower wordAst) wordL.states wordL.action wordL.goto :=
  transitions_of word_generated.built (noCollisions_id _ _) (ok_of_isSome (d := []) (by decide +kernel)) (by decide +kernel)

-- C33: the hypotheses of the theorems, a parse and a refusal.
example : Generated id wordRx (fun _ l => l) wordAst (startOf wordAst) (lower wordAst) wordL ∧
    DistinctSpellings (lower wordAst) ∧ Grammar.tokenDefs wordRx 0 (lower wordAst).tokens = .ok wordDefs ∧
    AtomsOk (wordDefs.map Prod.snd) ∧ (∀ p ∈ wordDefs, NonVoid p.2) ∧
    AllTransitions (lower wordAst) wordL.states wordL.action wordL.goto ∧
    wordL.parse 9 " x ab".toList = .ok [3, 1] ∧ wordL.parse 9 "x x".toList = .error .invalidToken :=
  ⟨word_generated, word_distinct, word_defs, word_atoms, word_nonVoid, word_transitions, ok_of (by decide +kernel),
    error_of (by decide +kernel)⟩

-- C32: two tokens and their terminals.
example : ∃ lx, (lower wordAst).lexer wordRx (fun _ l => l) = .ok lx ∧
    lx.lex "x ab".toList = .ok [⟨"x".toList, some "x".toList⟩, ⟨"[a-w]+".toList, some "ab".toList⟩] ∧
    List.Forall₂ (fun (t : Token) s => s ∈ (lower wordAst).tokens ∧ IsTerm s ∧ t.name = spelling s)
      [⟨"x".toList, some "x".toList⟩, ⟨"[a-w]+".toList, some "ab".toList⟩]
      [.strLit "x".toList, .regex "[a-w]+".toList] := by
  refine ⟨wordL.lexer, (new_ok word_generated.new).2.1, ok_of (by decide +kernel), ?_⟩
  rw [word_tokens]
  exact .cons (by simp [IsTerm, spelling]) (.cons (by simp [IsTerm, spelling]) .nil)

/-! ## Witnesses -/

/-- `S → "a" /a/`. -/
def twiceAst : List Ast.Prod := [⟨"S".toList, [⟨[.strLit ['a'], .regex ['a']], []⟩], true, []⟩]

/-- The regex crate on `a`. -/
def twiceRx (s : Str) : Option Hir := if s = ['a'] then some (.lit 97) else none

/-- C32 is false in general: in `S → "a" /a/` the text `a` is matched first by the
literal, terminal number 1, but the token is converted to 3, the number of the regex. -/
theorem C32_false : ∃ ps g ds lx, Expressible ps ∧ Grammar.fromAst ps = .ok g ∧ Declares twiceRx g ds ∧
    g.lexer twiceRx (fun _ l => l) = .ok lx ∧
    Lexes ds 0 ['a'] [(0, 0, ['a'])] [] ∧ (ds[0]?).bind (·.1.tokenIdx) = some 1 ∧
    lx.lex ['a'] = .ok [⟨['a'], some ['a']⟩] ∧
    lx.convertTokens [⟨['a'], some ['a']⟩] = .ok [(⟨['a'], some ['a']⟩, 3), (⟨"EOF".toList, none⟩, 0)] := by
  have hd : Grammar.tokenDefs twiceRx 0 (lower twiceAst).tokens =
      .ok [(⟨['a'], true, some 1⟩, .lit 97), (⟨['a'], true, some 3⟩, .lit 97)] := by rfl
  refine ⟨twiceAst, lower twiceAst, _, _, expressibleB_sound (by decide +kernel), ok_of_isSome (by decide +kernel),
    Grammar.declares hd, ok_of_isSome (d := ⟨⟨[], [], [], []⟩, [], []⟩) (by decide +kernel), ?_, rfl,
    ok_of (by decide +kernel), ok_of (by decide +kernel)⟩
  have hm : Matches (.lit 97) ['a'] := .lit (by decide)
  refine .tokEnd (w := ['a']) ⟨by simp, ⟨[], rfl⟩, ⟨_, List.mem_cons_self, hm⟩, ?_⟩
    ⟨⟨_, rfl, hm⟩, by intro j p hj; omega⟩ rfl ⟨[], _, List.mem_cons_self, hm⟩
  rintro v ⟨r, hr⟩ hlt
  have := congrArg List.length hr
  simp only [List.length_append] at this
  omega

/-- `S → /[a-d]/`, and an unused production with the other tokens. -/
def munchAst : List Ast.Prod :=
  [⟨"S".toList, [⟨[.regex "[a-d]".toList], []⟩], true, []⟩,
   ⟨"T".toList, [⟨[.strLit "cx".toList, .regex "[b-j]".toList, .regex "[c-t]".toList], []⟩], false, []⟩]

/-- The regex crate on the regexes of `munchAst`. -/
def munchRx (s : Str) : Option Hir :=
  if s = "[a-d]".toList then some (.cls [(97, 100)]) else if s = "[b-j]".toList then some (.cls [(98, 106)])
  else if s = "[c-t]".toList then some (.cls [(99, 116)]) else none

/-- The lexer tokens of `munchAst`. -/
def munchDefs : List (TokenDef × Hir) :=
  [(⟨"cx".toList, true, some 1⟩, .concat [.lit 99, .lit 120]), (⟨"[a-d]".toList, true, some 3⟩, .cls [(97, 100)]),
   (⟨"[b-j]".toList, true, some 4⟩, .cls [(98, 106)]), (⟨"[c-t]".toList, true, some 5⟩, .cls [(99, 116)])]

/-- C33 is false in general: `cx` is accepted by the parser for `munchAst`, but its
maximal munch token is the literal `cx`, which is not a sentence. -/
theorem C33_false : ∃ ps start g l ds, Generated id munchRx (fun _ l => l) ps start g l ∧ DistinctSpellings g ∧
    Grammar.tokenDefs munchRx 0 g.tokens = .ok ds ∧ (∃ out, l.parse 9 "cx".toList = .ok out) ∧
    ∃ pieces dropped, Lexes ds 0 "cx".toList pieces dropped ∧
      ∀ ws, pieces.map (pieceSym g ds) = ws.map some → ¬ Sentence (AstRule ps) start.name ws := by
  have ht : (lower munchAst).tokens = [.eof, .strLit "cx".toList, .nonTerm "S".toList, .regex "[a-d]".toList,
      .regex "[b-j]".toList, .regex "[c-t]".toList] := by decide +kernel
  have hd : Grammar.tokenDefs munchRx 0 (lower munchAst).tokens = .ok munchDefs := by rw [ht]; rfl
  refine ⟨munchAst, startOf munchAst, lower munchAst, _, munchDefs,
    ⟨expressibleB_sound (by decide +kernel), startOf_eq (by decide +kernel),
      ok_of_isSome (by decide +kernel), 
      ok_of_isSome (d := ⟨⟨[], [], [], []⟩, ⟨⟨[], [], [], []⟩, [], []⟩, [], [], []⟩) (by decide +kernel)⟩, ?_, hd,
    ⟨[1], ok_of (by decide +kernel)⟩, [(0, 0, "cx".toList)], [], ?_, ?_⟩
  · unfold DistinctSpellings
    rw [ht]
    intro s hs t ht h1 h2 h3
    simp only [List.mem_cons, List.not_mem_nil, or_false] at hs ht
    rcases hs with rfl | rfl | rfl | rfl | rfl | rfl <;> rcases ht with rfl | rfl | rfl | rfl | rfl | rfl <;>
      first | rfl | exact False.elim h1 | exact False.elim h2 | (revert h3; decide)
  · have hm : Matches (.concat [.lit 99, .lit 120]) "cx".toList :=
      .concatCons (w₁ := ['c']) (w₂ := ['x']) (.lit (by decide))
        (.concatCons (w₁ := ['x']) (w₂ := []) (.lit (by decide)) .concatNil)
    refine .tokEnd (w := "cx".toList) ⟨by simp, ⟨[], by simp⟩, ⟨_, List.mem_cons_self, hm⟩, ?_⟩
      ⟨⟨_, rfl, hm⟩, by intro j p hj; omega⟩ (by simp) ⟨[], _, List.mem_cons_self, by simpa using hm⟩
    rintro v ⟨r, hr⟩ hlt
    have := congrArg List.length hr
    simp only [List.length_append] at this
    omega
  · rintro ws hws ⟨_, hst⟩
    have hw : ws = [.strLit "cx".toList] := by
      have : [some (Sym.strLit "cx".toList)] = ws.map some := by rw [← hws]; decide +kernel
      cases ws with
      | nil => simp at this
      | cons a l => simp at this; simp [this]
    subst hw
    have hinv : ∀ {α β}, Steps (AstRule munchAst) α β →
        (∀ x ∈ α, x = .nonTerm "S".toList ∨ x = .regex "[a-d]".toList) →
        ∀ x ∈ β, x = .nonTerm "S".toList ∨ x = .regex "[a-d]".toList := by
      intro α β h h0
      induction h with
      | refl => exact h0
      | tail _ hs ih =>
        cases hs with
        | @mk l r A rhs hR =>
          intro x hx
          simp only [List.mem_append] at hx
          rcases hx with (hx | hx) | hx
          · exact ih x (by simp [hx])
          · obtain ⟨p, hp, b, hb, hn, rfl⟩ := hR
            have hA := ih (.nonTerm A) (by simp)
            simp only [Sym.nonTerm.injEq, reduceCtorEq, or_false] at hA
            subst hA
            simp only [munchAst, List.mem_cons, List.not_mem_nil, or_false] at hp
            rcases hp with rfl | rfl
            · simp only [List.mem_cons, List.not_mem_nil, or_false] at hb
              subst hb
              simp only [List.map_cons, List.map_nil, List.mem_singleton, Ast.InSym.lower] at hx
              exact .inr hx
            · exact absurd hn (by decide)
          · exact ih x (by simp [hx])
    have := hinv hst (by intro x hx; left; simpa [startOf, munchAst] using hx) _ List.mem_cons_self
    simp at this

end Verif.Props
