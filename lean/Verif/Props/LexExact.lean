import Verif.Spec.Pieces
import Verif.Proofs.MunchUnique
import Verif.Props.ParseExact

/-! # C08, C09, C10, C11, C15, C33 for every list of tokens

What the generated lexer does when the pieces of the alphabet need not fit the ranges: it reads the text piece by
piece.  The theorems here have no condition on the ranges. -/

namespace Verif.Props
open Verif Spec

/-- The alphabet is cut from the ranges of the tokens. -/
theorem built_alphabet {n d al D s0} (B : Dfa.Built n d al D s0) {rs : List Match} (hl : ∀ m, n.Lab m ↔ m ∈ rs) :
    Overlap.removeOverlap (ofList rs) = .ok al := by
  rw [← B.alphabet]
  congr 1
  refine ofList_ext fun m => ?_
  rw [← hl, Nfa.mem_labels B.base.wf]

/-- C08 for every list of tokens: there is a walk over a text exactly if it can be read piece by piece, and it
ends in a state standing for exactly the NFA states reachable over the pieces read. -/
theorem C08_exact {toks : List (TokenDef × Hir)} {ns : List (TokenDef × Nfa)}
    (hb : Lex.buildNfas toks = .ok ns) {ord : Nfa.Order} (ho : Reorders ord) :
    ∃ d al, Dfa.fromNfa (Lex.combine ns).1 ord = .ok d ∧ Overlap.removeOverlap (ofList (rangesOf toks)) = .ok al ∧
      (∀ w, (∃ t, DWalk d w t) ↔ ∃ as, Reads al (toks.map Prod.snd) w as) ∧
      ∀ w t as, w ≠ [] → DWalk d w t → Reads al (toks.map Prod.snd) w as → ∃ u, mget t d.dfaToNfa = some u ∧
        ∀ x, x ∈ u ↔ PPath (Lex.combine ns).1.edges Nfa.START as x := by
  obtain ⟨acc, hc⟩ := Lex.combined hb
  obtain ⟨d, al, D, s0, h1, B⟩ := Dfa.fromNfa_built hc.base (reorders_ok ho)
  have P := Lex.pcombined hb hc
  refine ⟨d, al, h1, built_alphabet B (combined_labels hc), fun w => ?_, fun w t as hw hwalk hr => ?_⟩
  · rw [← B.walk_reads P.leaves, Option.isSome_iff_exists]
    simp only [dwalk_iff]
  · obtain ⟨bs, h2, u, h3, h4⟩ := B.pwalk P.leaves (dwalk_iff.mp hwalk)
    have := reads_unique hr h2 rfl
    subst this
    exact ⟨u, by rw [B.spec.map, if_neg (B.walk_ne hw (dwalk_iff.mp hwalk)), h3], h4⟩

/-- C09 for every regex: `DFA::test` says whether the text is ASCII, not empty and can be read piece by piece. -/
theorem C09_exact {h : Hir} {n : Nfa} (hn : Nfa.fromRegex h = .ok n) {ord : Nfa.Order} (ho : Reorders ord) :
    ∃ d al, Dfa.fromNfa n ord = .ok d ∧ Overlap.removeOverlap (ofList (ranges h)) = .ok al ∧
      ∀ s, d.test s = true ↔ s ≠ [] ∧ (∀ c ∈ s, c.toNat < 128) ∧ ∃ as, Reads al [h] s as := by
  have g := Nfa.fromRegex_good hn
  have pg := Nfa.fromRegex_pgood hn
  obtain ⟨d, al, D, s0, h1, B⟩ := Dfa.fromNfa_built g.base (reorders_ok ho)
  refine ⟨d, al, h1, built_alphabet B (Nfa.lab_fromRegex hn), fun s => ?_⟩
  rw [B.test_iff s, B.walk_reads (hs := [h])]
  intro as
  funext m
  refine propext ⟨fun ⟨e, he, hl, hp⟩ => ⟨h, by simp, pg.next as e m he hl hp⟩, fun ⟨h', hh, hx⟩ => ?_⟩
  obtain rfl := List.mem_singleton.mp hh
  exact pg.hit as m hx

/-- C10 and C11 for every list of tokens and every text: the text is cut by maximal munch, the first declared token
winning, when read piece by piece; there is one such cut; the tokens carry what is at the positions of the pieces,
taken as bytes, and if that is not text for one of them the lexer panics. -/
theorem C10_exact {toks : List (TokenDef × Hir)} {lx : Lex} {ord : Nfa.Order}
    (ho : Reorders ord) (h : Lex.fromTokens ord toks = .ok lx) :
    ∃ al, Overlap.removeOverlap (ofList (rangesOf toks)) = .ok al ∧
      ∀ input, ∃ out dropped, Munch (PToken al toks) (PViable al toks) 0 input out dropped ∧
        (∀ out' dropped', Munch (PToken al toks) (PViable al toks) 0 input out' dropped' → out' = out ∧ dropped' = dropped) ∧
        (∀ ts, lx.lex input = .ok ts ↔ List.Forall₂ (Carries toks input) out ts) ∧
        ((¬ ∃ ts, List.Forall₂ (Carries toks input) out ts) → lx.lex input = .error .charBoundary) := by
  obtain ⟨N, acc, al, D, s0, M, P⟩ := Lex.fromTokens_pmade (reorders_ok ho) h
  refine ⟨al, built_alphabet M.built (combined_labels M.comb), fun input => ?_⟩
  obtain ⟨out, dr, h1, h2⟩ := Lex.lex_run lx input
  obtain ⟨out', h3, h4⟩ := M.munch P input h1
  have hcar : ∀ ts, lx.lex input = .ok ts ↔ List.Forall₂ (Carries toks input) out' ts := fun ts => by
    rw [h2, h4, Lex.mapM_iff]; simp only [Lex.expected_iff]
  refine ⟨out', dr, h3, fun _ _ h' => Lex.pmunch_unique h3 h', hcar, fun hno => ?_⟩
  have hq : ∀ p ∈ out', ∃ q, toks[p.2.1]? = some q := fun p hp => by
    obtain ⟨_, _, _, _, _, q, hq, _⟩ := Lex.pieces_where (Lex.munch_pieces (M.ptoken_sound P) h3) p hp; exact ⟨q, hq⟩
  rcases Lex.expected_or (toks := toks) (input := input) (out := out') hq with ⟨ts, ht, _⟩ | he
  · exact absurd ⟨ts, (hcar ts).mp (by rw [h2, h4, ht])⟩ hno
  · rw [h2, h4, he]

/-- Reading piece by piece only ever finds tokens that match; when the pieces fit, it finds all and in the
right order, and what may still become a token is what some token matches an extension of. -/
theorem C11_exact {toks : List (TokenDef × Hir)} {lx : Lex} {ord : Nfa.Order}
    (ho : Reorders ord) (h : Lex.fromTokens ord toks = .ok lx) :
    ∃ al, Overlap.removeOverlap (ofList (rangesOf toks)) = .ok al ∧
      (∀ w i, w ≠ [] → PToken al toks w i → ∃ p, toks[i]? = some p ∧ Matches p.2 w) ∧
      (AtomsOk (toks.map Prod.snd) → (∀ w i, w ≠ [] → (PToken al toks w i ↔ FirstMatch toks w i)) ∧
        ((∀ p ∈ toks, NonVoid p.2) → ∀ w, w ≠ [] → (PViable al toks w ↔ Viable toks w))) := by
  obtain ⟨N, acc, al, D, s0, M, P⟩ := Lex.fromTokens_pmade (reorders_ok ho) h
  refine ⟨al, built_alphabet M.built (combined_labels M.comb), M.ptoken_sound P, fun ha => ⟨fun w i hw => ?_, fun hv w hw => ?_⟩⟩
  · have hd := made_disjoint M ha
    have lt : ∀ {i p}, toks[i]? = some p → i < toks.length := fun h => (List.getElem?_eq_some_iff.mp h).1
    constructor
    · intro hT
      obtain ⟨j, e, hj⟩ := M.acc_exact hd ((M.acc_iff P hw).mpr ⟨i, rfl, hT⟩)
      obtain ⟨_, _, ⟨p, hp, _⟩, _⟩ := hT
      obtain ⟨q, hq, _⟩ := hj.1
      rw [M.comb.inj (lt hp) (lt hq) e]
      exact hj
    · intro hF
      obtain ⟨p, hp, hm⟩ := hF.1
      obtain ⟨a, hacc⟩ := M.acc_complete hd hw (List.mem_of_getElem? hp) hm
      obtain ⟨j, rfl, hj⟩ := M.acc_exact hd hacc
      obtain ⟨k, e, hk⟩ := (M.acc_iff P hw).mp hacc
      obtain ⟨_, _, ⟨r, hr, _⟩, _⟩ := id hk
      obtain ⟨q, hq, _⟩ := hj.1
      have h1 := M.comb.inj (lt hq) (lt hr) e
      have h2 := Lex.firstMatch_unique hF hj
      rw [h2, h1]
      exact hk
  · rw [← M.viable (made_disjoint M ha) hv hw]
    exact (M.built.walk_reads P.leaves).symm

theorem munch_dropped {T : List Char → Nat → Prop} {V : List Char → Prop} {k input out dr} (h : Munch T V k input out dr) :
    dr = [] ∨
    (∃ c rest, dr = c :: rest ∧ (∀ v i, v ≠ [] → (∃ r, dr = v ++ r) → ¬ T v i) ∧ ¬ (Blank c ∧ ¬ V [c])) ∨
    (∃ k' i w, out.getLast? = some (k', i, w) ∧ V (w ++ dr)) := by
  induction h with
  | done => exact .inl rfl
  | blank _ _ _ ih => exact ih
  | tok _ _ _ _ ih =>
    rcases ih with h | h | ⟨k', i, w, h, h'⟩
    · exact .inl h
    · exact .inr (.inl h)
    · exact .inr (.inr ⟨k', i, w, by simp [List.getLast?_cons, h], h'⟩)
  | @tokEnd _ _ w _ _ h1 h3 h4 => exact .inr (.inr ⟨_, _, w, rfl, h3 ▸ h4⟩)
  | @stop _ c rest h1 h2 => exact .inr (.inl ⟨c, rest, rfl, h1, h2⟩)

/-- C15 for every list of tokens and every text: the exact rule for the text that is dropped. -/
theorem C15_exact {toks : List (TokenDef × Hir)} {lx : Lex} {ord : Nfa.Order}
    (ho : Reorders ord) (h : Lex.fromTokens ord toks = .ok lx) :
    ∃ al, Overlap.removeOverlap (ofList (rangesOf toks)) = .ok al ∧
      ∀ input ts, lx.lex input = .ok ts → ∃ out dropped, List.Forall₂ (Carries toks input) out ts ∧
        Pieces toks 0 input out dropped ∧
        (dropped = [] ∨
         (∃ c rest, dropped = c :: rest ∧ (∀ v i, v ≠ [] → (∃ r, dropped = v ++ r) → ¬ PToken al toks v i) ∧
           ¬ (Blank c ∧ ¬ PViable al toks [c])) ∨
         (∃ k i w, out.getLast? = some (k, i, w) ∧ PViable al toks (w ++ dropped))) := by
  obtain ⟨al, h1, h2⟩ := C10_exact ho h
  obtain ⟨al', h3, h4, _⟩ := C11_exact ho h
  obtain rfl : al = al' := Except.ok.inj (h1.symm.trans h3)
  refine ⟨al, h1, fun input ts hl => ?_⟩
  obtain ⟨out, dr, h5, _, h6, _⟩ := h2 input
  exact ⟨out, dr, (h6 ts).mp hl, Lex.munch_pieces h4 h5, munch_dropped h5⟩

section
variable {H : Type} [DecidableEq H] {hash : List Item → H} {rx : Str → Option Hir} {ord : Nfa.Order} {ps : List Ast.Prod}
  {start : Ast.Prod} {g : Grammar} {l : Lalr}

/-- As `parse_cut`, reading piece by piece. -/
theorem parse_munch (hG : Generated hash rx ord ps start g l) (ho : Reorders ord) (hds : DistinctSpellings g)
    {ds : List (TokenDef × Hir)} (hd : Grammar.tokenDefs rx 0 g.tokens = .ok ds) (input : Str) :
    ∃ al pieces cut dropped ws, Declares rx g ds ∧ Overlap.removeOverlap (ofList (rangesOf ds)) = .ok al ∧ input = cut ++ dropped ∧ Munch (PToken al ds) (PViable al ds) 0 input pieces dropped ∧
      pieces.map (pieceSym g ds) = ws.map some ∧
      (((¬ ∃ ts, List.Forall₂ (Carries ds input) pieces ts) ∧ (∃ c ∈ cut, 128 ≤ c.toNat) ∧
        ∀ fuel, l.parse fuel input = .error .charBoundary) ∨
       (∃ ts, List.Forall₂ (Carries ds input) pieces ts) ∧ ∃ ks, Numbers g ks ws ∧ 0 ∉ ks ∧ ks.length = ws.length ∧
        ∀ fuel, l.parse fuel input = Lalr.parseIdx g l.action l.goto fuel (ks ++ 0 :: [])) := by
  obtain ⟨hg, hx, _⟩ := new_ok hG.new
  obtain ⟨ds', h1, h2⟩ := Grammar.lexer_ok hx
  obtain rfl : ds' = ds := Except.ok.inj (h1.symm.trans hd)
  have hD := Grammar.declares h1
  obtain ⟨N, acc, al, D, s0, M, P⟩ := Lex.fromTokens_pmade (reorders_ok ho) h2
  obtain ⟨out1, dr, h3, h4⟩ := Lex.lex_run l.lexer input
  obtain ⟨out', h5, h6⟩ := M.munch P input h3
  have h5p := Lex.munch_pieces (M.ptoken_sound P) h5
  have hq : ∀ p ∈ out', ∃ q, ds'[p.2.1]? = some q := fun p hp => by
    obtain ⟨_, _, _, _, _, q, hq, _⟩ := Lex.pieces_where h5p p hp; exact ⟨q, hq⟩
  have hws : ∃ ws : List Sym, out'.map (pieceSym g ds') = ws.map some := by
    clear h5 h6 h5p
    induction out' with
    | nil => exact ⟨[], rfl⟩
    | cons p out' ih =>
      obtain ⟨ws, hws⟩ := ih fun p hp => hq p (by simp [hp])
      obtain ⟨q, h7⟩ := hq p (by simp)
      obtain ⟨s, k, e1, _, e3, _⟩ := hD.each q (List.mem_of_getElem? h7)
      exact ⟨s :: ws, by simp [pieceSym, h7, e3, e1, hws]⟩
  obtain ⟨ws, hws⟩ := hws
  obtain ⟨a, h0, _⟩ := Lex.pieces_split h5p
  refine ⟨al, out', a, dr, ws, hD, built_alphabet M.built (combined_labels M.comb), h0, h5, hws, ?_⟩
  have hcar : ∀ ts, l.lexer.lex input = .ok ts ↔ List.Forall₂ (Carries ds' input) out' ts := fun ts => by
    rw [h4, h6, Lex.mapM_iff]
    simp only [Lex.expected_iff]
  have hor : (∃ ts, l.lexer.lex input = .ok ts ∧ ts.length = out'.length) ∨
      (l.lexer.lex input = .error .charBoundary ∧ ∃ c ∈ a, 128 ≤ c.toNat) := by
    rw [h4, h6]
    by_cases hasc : ∀ c ∈ a, c.toNat < 128
    · refine .inl ⟨_, Lex.expected_ascii' h5p fun b hb => ?_, by simp⟩
      rw [List.append_cancel_right (h0.symm.trans hb)] at hasc
      exact hasc
    · have hex : ∃ c ∈ a, 128 ≤ c.toNat := by
        simp only [not_forall, not_lt] at hasc
        obtain ⟨c, hc, hl⟩ := hasc
        exact ⟨c, hc, hl⟩
      rcases Lex.expected_or (toks := ds') (input := input) (out := out') hq with h | h
      · exact .inl h
      · exact .inr ⟨h, hex⟩
  rcases hor with ⟨ts, hl, _⟩ | ⟨hl, hna⟩
  · right
    have hexp := hl
    rw [h4, h6] at hexp
    obtain ⟨ss, h7, h8⟩ := Lex.piece_syms hD (Lex.expected_names hexp) hq
    have : ss = ws := (List.map_inj_right (fun _ _ => Option.some.inj)).mp (h7.symm.trans hws)
    subst this
    obtain ⟨ks, g1, g2, g3, g4⟩ := C32_convert_partial hG.expr hG.ast ho hx hds h8
    have hlen : ks.length = ss.length := by simpa using congrArg List.length g1
    refine ⟨⟨ts, (hcar ts).mp hl⟩, ks, g1, g2, hlen, fun fuel => ?_⟩
    unfold Lalr.parse
    simp only [hl, g4, bind, Except.bind, snd_zip_append g3, hg]
  · left
    refine ⟨fun ⟨ts, h⟩ => (by rw [(hcar ts).mpr h] at hl; cases hl), hna, fun fuel => ?_⟩
    unfold Lalr.parse
    simp only [hl, bind, Except.bind]

/-- C33 for every grammar with distinct spellings, whatever the ranges and whatever transitions are dropped: the
text is cut by maximal munch read piece by piece; the parser answers with the postorder of a parse tree of the cut
just when every transition along the tree is kept, and with nothing else; it panics while slicing just when the
position and length of a piece with a value, counted in characters, are not the bounds in bytes of a text. -/
theorem C33_exact (hG : Generated hash rx ord ps start g l) (ho : Reorders ord)
    (hds : DistinctSpellings g) (hc : NoCollisions hash g (Lalr.depthOf g))
    {ds : List (TokenDef × Hir)} (hd : Grammar.tokenDefs rx 0 g.tokens = .ok ds) (input : Str) :
    ∃ al pieces cut dropped ws, Declares rx g ds ∧ Overlap.removeOverlap (ofList (rangesOf ds)) = .ok al ∧
      input = cut ++ dropped ∧ Munch (PToken al ds) (PViable al ds) 0 input pieces dropped ∧
      pieces.map (pieceSym g ds) = ws.map some ∧
      (((¬ ∃ ts, List.Forall₂ (Carries ds input) pieces ts) ∧ (∃ c ∈ cut, 128 ≤ c.toNat) ∧
        ∀ fuel, l.parse fuel input = .error .charBoundary) ∨
       ((∃ ts, List.Forall₂ (Carries ds input) pieces ts) ∧
        (∀ f, IsTree g.prods start.name f ws → KeptTree g f → ∀ fuel, ws.length + f.post.length < fuel →
          l.parse fuel input = .ok f.post) ∧
        ∀ fuel out, l.parse fuel input = .ok out → ∃ f, IsTree g.prods start.name f ws ∧ KeptTree g f ∧ f.post = out)) := by
  obtain ⟨al, pieces, cut, dropped, ws, h1, h0, h2, h3, h4, h5⟩ := parse_munch hG ho hds hd input
  refine ⟨al, pieces, cut, dropped, ws, h1, h0, h2, h3, h4, h5.imp_right ?_⟩
  rintro ⟨hts, ks, k1, k2, k3, k4⟩
  refine ⟨hts, fun f hf hk fuel hlt => ?_, fun fuel out hp => ?_⟩
  · rw [k4]
    exact (C66_tree hG.built hc hf k1 []).2 hk fuel hlt
  · rw [k4] at hp
    exact (C66_language hG.built hc k1 k2 [] out).mp ⟨fuel, hp⟩

end

/-! ## The hypotheses hold -/

/-- The pieces cut for `badToks`. -/
def badPieces : List Match :=
  [⟨97, 98⟩, ⟨98, 99⟩, ⟨99, 101⟩, ⟨99, 100⟩, ⟨100, 101⟩, ⟨101, 107⟩, ⟨107, 117⟩]

/-- The text `c` is read as the piece from `c` to `d`. -/
theorem bad_reads : Reads badPieces (badToks.map Prod.snd) ['c'] [⟨99, 101⟩] := by
  refine Reads.snoc (w := []) (as := []) .nil ⟨[⟨97, 98⟩, ⟨98, 99⟩], _, rfl, by unfold Mem; decide,
    ⟨⟨97, 101⟩, ⟨.cls [(97, 100)], by simp [badToks], .cls (r := (97, 100)) (by simp)⟩, ?_⟩, ?_⟩
  · intro c hc; simp only [Mem] at *; omega
  · intro b hb hc
    exfalso
    revert hc
    revert b
    unfold Mem
    decide

-- C08_exact, C10_exact, C11_exact, C15_exact, with pieces that do not fit: `c` is the second token, although the first matches it.
example : (∃ lx, Lex.fromTokens (fun _ l => l) badToks = .ok lx ∧ lx.lex ['c'] = .ok [⟨"d".toList, none⟩]) ∧
    (∃ ns, Lex.buildNfas badToks = .ok ns) ∧ Overlap.removeOverlap (ofList (rangesOf badToks)) = .ok badPieces ∧
    PToken badPieces badToks ['c'] 1 ∧ FirstMatch badToks ['c'] 0 := by
  refine ⟨⟨_, rfl, by rfl⟩, ⟨_, rfl⟩, rfl, ⟨_, bad_reads, ⟨_, rfl, .cls (r := (97, 100)) (by simp) ⟨by decide, by decide⟩⟩, ?_⟩,
    ⟨⟨_, rfl, .lit (by decide)⟩, by intro j p hj; omega⟩⟩
  intro j p hj hp hm
  obtain rfl : j = 0 := by omega
  cases hp
  cases hm with
  | lit h => exact absurd h.2 (by decide)

-- C09_exact: a regex with such ranges, `c|[a-d]|[b-j]|[c-t]`, and the text `c`.
example : ∃ n, Nfa.fromRegex (.alt (badToks.map Prod.snd)) = .ok n ∧
    Overlap.removeOverlap (ofList (ranges (.alt (badToks.map Prod.snd)))) = .ok badPieces :=
  ⟨_, rfl, rfl⟩

-- C33_exact: the grammar of `C33_false`, whose pieces do not fit.
example : ∃ start g l ds, Generated id munchRx (fun _ l => l) munchAst start g l ∧ DistinctSpellings g ∧
    NoCollisions (H := List Item) id g (Lalr.depthOf g) ∧ Grammar.tokenDefs munchRx 0 g.tokens = .ok ds := by
  have ht : (lower munchAst).tokens = [.eof, .strLit "cx".toList, .nonTerm "S".toList, .regex "[a-d]".toList,
      .regex "[b-j]".toList, .regex "[c-t]".toList] := by decide +kernel
  have hd : Grammar.tokenDefs munchRx 0 (lower munchAst).tokens = .ok munchDefs := by rw [ht]; rfl
  refine ⟨startOf munchAst, lower munchAst, _, munchDefs,
    ⟨expressibleB_sound (by decide +kernel), startOf_eq (by decide +kernel),
      ok_of_isSome (by decide +kernel),
      ok_of_isSome (d := ⟨⟨[], [], [], []⟩, ⟨⟨[], [], [], []⟩, [], []⟩, [], [], []⟩) (by decide +kernel)⟩, ?_,
    noCollisions_id _ _, hd⟩
  unfold DistinctSpellings
  rw [ht]
  intro s hs t ht h1 h2 h3
  simp only [List.mem_cons, List.not_mem_nil, or_false] at hs ht
  rcases hs with rfl | rfl | rfl | rfl | rfl | rfl <;> rcases ht with rfl | rfl | rfl | rfl | rfl | rfl <;>
    first | rfl | exact False.elim h1 | exact False.elim h2 | (revert h3; decide)

end Verif.Props
