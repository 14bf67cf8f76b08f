import Verif.Props.Apart

/-! # Property: which sentences have a text (C96) -/

namespace Verif.Props
open Verif Spec

section
variable {H : Type} [DecidableEq H] {hash : List Item → H} {rx : Str → Option Hir} {ord : Nfa.Order} {ps : List Ast.Prod}
  {start : Ast.Prod} {g : Grammar} {l : Lalr} {ds : List (TokenDef × Hir)}

theorem spells_iff (hD : Declares rx g ds) {x : Sym} {u : List Char} (hu : u ≠ []) :
    Spells rx g x u ↔ ∃ i, FirstMatch ds u i ∧ pieceSym g ds (0, i, u) = some x := by
  have hord : ∀ {i j : Nat} {a b : TokenDef × Hir}, i < j → ds[i]? = some a → ds[j]? = some b →
      ∃ m n, a.1.tokenIdx = some m ∧ b.1.tokenIdx = some n ∧ m < n := by
    intro i j a b hij ha hb
    obtain ⟨h1, rfl⟩ := List.getElem?_eq_some_iff.mp ha
    obtain ⟨h2, rfl⟩ := List.getElem?_eq_some_iff.mp hb
    exact List.pairwise_iff_getElem.mp hD.order i j h1 h2 hij
  constructor
  · rintro ⟨_, k, hk, ht, hd, hn⟩
    obtain ⟨d, hmem, hdd⟩ := hD.all x k hk ht
    obtain ⟨i, hi⟩ := List.getElem?_of_mem hmem
    obtain ⟨s, k', hk', _, e, hm⟩ := hD.each d hmem
    rw [hdd] at e
    simp only [TokenDef.mk.injEq, Option.some.injEq, true_and] at e
    obtain ⟨_, rfl⟩ := e
    rw [hk] at hk'; cases hk'
    refine ⟨i, ⟨⟨d, hi, (hm u).mpr hd⟩, fun j p hj hp hmp => ?_⟩, ?_⟩
    · obtain ⟨s', k', h1, h2, h3, h4⟩ := hD.each p (List.mem_of_getElem? hp)
      obtain ⟨m, n, h5, h6, h7⟩ := hord hj hp hi
      rw [h3] at h5; rw [hdd] at h6
      cases h5; cases h6
      exact hn _ _ h7 h1 h2 ((h4 u).mp hmp)
    · simp only [pieceSym, hi, Option.bind_some, hdd]
      exact hk
  · rintro ⟨i, ⟨⟨d, hi, hmd⟩, hn⟩, hx⟩
    obtain ⟨s, k, h1, h2, h3, h4⟩ := hD.each d (List.mem_of_getElem? hi)
    simp only [pieceSym, hi, Option.bind_some, h3] at hx
    rw [h1] at hx; cases hx
    refine ⟨hu, k, h1, h2, (h4 u).mp hmd, fun j y hj hy hty hdy => ?_⟩
    obtain ⟨d', hmem, hdd⟩ := hD.all y j hy hty
    obtain ⟨i', hi'⟩ := List.getElem?_of_mem hmem
    obtain ⟨s', k', hk', _, e, hm⟩ := hD.each d' hmem
    rw [hdd] at e
    simp only [TokenDef.mk.injEq, Option.some.injEq, true_and] at e
    obtain ⟨_, rfl⟩ := e
    rw [hy] at hk'; cases hk'
    rcases Nat.lt_trichotomy i' i with h | rfl | h
    · exact hn i' d' h hi' ((hm u).mpr hdy)
    · rw [hi] at hi'; cases hi'
      rw [h3] at hdd
      simp only [TokenDef.mk.injEq, Option.some.injEq, true_and] at hdd
      omega
    · obtain ⟨m, n, h5, h6, h7⟩ := hord h hi hi'
      rw [h3] at h5; rw [hdd] at h6
      cases h5; cases h6
      omega

/-- **C96, accepted.**  Words that spell the leaves of a tree whose transitions are kept, written apart, are accepted, and the
answer is the postorder of the tree. -/
theorem C96_accepts (hG : Generated hash rx ord ps start g l) (ho : Reorders ord) (hds : DistinctSpellings g)
    (hc : NoCollisions hash g (Lalr.depthOf g)) (hd : Grammar.tokenDefs rx 0 g.tokens = .ok ds) (ha : AtomsOk (ds.map Prod.snd))
    {ws : List Sym} {f : Forest} (hf : IsTree g.prods start.name f ws) (hk : KeptTree g f) {us : List (List Char)}
    (hu : List.Forall₂ (Spells rx g) ws us) (hasc : ∀ u ∈ us, ∀ c ∈ u, c.toNat < 128) {s : Str} (hs : Apart (Free ds) us s) :
    (∃ al pieces, Overlap.removeOverlap (ofList (rangesOf ds)) = .ok al ∧ Munch (PToken al ds) (PViable al ds) 0 s pieces [] ∧
      pieces.map (pieceSym g ds) = ws.map some ∧ pieces.map (fun p => p.2.2) = us) ∧
    ∀ fuel, ws.length + f.post.length < fuel → l.parse fuel s = .ok f.post := by
  obtain ⟨_, hx, _⟩ := new_ok hG.new
  obtain ⟨ds', h1, h2⟩ := Grammar.lexer_ok hx
  obtain rfl : ds' = ds := Except.ok.inj (h1.symm.trans hd)
  have hD := Grammar.declares h1
  obtain ⟨al, pieces, cut, dropped, ws', _, hal, hcut, hm, hws, hcase⟩ := C33_exact hG ho hds hc hd s
  obtain ⟨al', hal', _, h11⟩ := C11_exact ho h2
  rw [hal] at hal'; cases hal'
  have his : ∃ is, List.Forall₂ (fun i u => u ≠ [] ∧ PToken al ds' u i) is us ∧
      (is.zip us).map (fun p => pieceSym g ds' (0, p)) = ws.map some := by
    clear hf hs hasc
    induction hu with
    | nil => exact ⟨[], .nil, rfl⟩
    | @cons x u ws us hxu _ ih =>
      obtain ⟨is, h3, h4⟩ := ih
      obtain ⟨i, h5, h6⟩ := (spells_iff hD hxu.1).mp hxu
      exact ⟨i :: is, .cons ⟨hxu.1, ((h11 ha).1 u i hxu.1).mpr h5⟩ h3, by simp [h4, h6]⟩
  obtain ⟨is, h3, h4⟩ := his
  obtain ⟨out, m1, _, m3⟩ := apart_munch ds' al h3 hs
  obtain ⟨rfl, rfl⟩ := Lex.pmunch_unique m1 hm
  have hlen := h3.length_eq
  have hws' : pieces.map (pieceSym g ds') = (is.zip us).map (fun p => pieceSym g ds' (0, p)) := by
    rw [← m3, List.map_map]; rfl
  obtain rfl : ws' = ws := (List.map_inj_right (fun _ _ => Option.some.inj)).mp (hws.symm.trans (hws'.trans h4))
  refine ⟨⟨al, pieces, hal, hm, hws, ?_⟩, ?_⟩
  · have := congrArg (List.map Prod.snd) m3
    rw [List.map_map, List.map_snd_zip (by omega)] at this
    exact this
  · rcases hcase with ⟨_, ⟨c, hc1, hc2⟩, _⟩ | ⟨_, hacc, _⟩
    · exfalso
      have hcs : c ∈ s := by rw [hcut]; simp [hc1]
      rcases hs.chars c hcs with hb | ⟨u, hu', hc3⟩
      · have := free_ascii hb; omega
      · have := hasc u hu' c hc3; omega
    · exact hacc f hf hk

theorem apart_lines {B : Char → Prop} {b : Char} (hb : B b) : ∀ us : List (List Char), Apart B us (us.flatMap fun u => u ++ [b])
  | [] => .nil
  | u :: us => by
    have := Apart.word (w := u) hb (apart_lines hb us)
    simpa using this

/-- **C96, exactly.**  If some blank is in no range, there is an ASCII text cut into the leaves of such a tree and accepted just when
each leaf is spelled by a word in ASCII. -/
theorem C96_exact (hG : Generated hash rx ord ps start g l) (ho : Reorders ord) (hds : DistinctSpellings g)
    (hc : NoCollisions hash g (Lalr.depthOf g)) (hd : Grammar.tokenDefs rx 0 g.tokens = .ok ds) (ha : AtomsOk (ds.map Prod.snd))
    {b : Char} (hb : Free ds b) {ws : List Sym} {f : Forest} (hf : IsTree g.prods start.name f ws) (hk : KeptTree g f) :
    (∃ al s pieces dropped, Overlap.removeOverlap (ofList (rangesOf ds)) = .ok al ∧ (∀ c ∈ s, c.toNat < 128) ∧
        Munch (PToken al ds) (PViable al ds) 0 s pieces dropped ∧ pieces.map (pieceSym g ds) = ws.map some ∧
        ∀ fuel, ws.length + f.post.length < fuel → l.parse fuel s = .ok f.post) ↔
      ∀ x ∈ ws, ∃ u, Spells rx g x u ∧ ∀ c ∈ u, c.toNat < 128 := by
  obtain ⟨_, hx, _⟩ := new_ok hG.new
  obtain ⟨ds', h1, h2⟩ := Grammar.lexer_ok hx
  obtain rfl : ds' = ds := Except.ok.inj (h1.symm.trans hd)
  have hD := Grammar.declares h1
  constructor
  · rintro ⟨al, s, pieces, dropped, hal, hasc, hm, hws, _⟩ x hx
    obtain ⟨al', hal', _, h11⟩ := C11_exact ho h2
    rw [hal] at hal'; cases hal'
    have : some x ∈ pieces.map (pieceSym g ds') := by rw [hws]; exact List.mem_map_of_mem hx
    obtain ⟨p, hp, hpx⟩ := List.mem_map.mp this
    obtain ⟨hw, hin⟩ := munch_words hm
    rw [List.forall₂_map_left_iff, List.forall₂_map_right_iff, List.forall₂_same] at hw
    obtain ⟨hne, ht⟩ := hw p hp
    exact ⟨p.2.2, (spells_iff hD hne).mpr ⟨p.2.1, ((h11 ha).1 _ _ hne).mp ht, hpx⟩, fun c hc => hasc c (hin p hp c hc)⟩
  · intro h
    have hus : ∃ us, List.Forall₂ (Spells rx g) ws us ∧ ∀ u ∈ us, ∀ c ∈ u, c.toNat < 128 := by
      clear hf
      induction ws with
      | nil => exact ⟨[], .nil, by simp⟩
      | cons x ws ih =>
        obtain ⟨us, h3, h4⟩ := ih fun y hy => h y (by simp [hy])
        obtain ⟨u, h5, h6⟩ := h x (by simp)
        exact ⟨u :: us, .cons h5 h3, by simpa using ⟨h6, h4⟩⟩
    obtain ⟨us, h3, h4⟩ := hus
    obtain ⟨⟨al, pieces, a1, a2, a3, _⟩, a5⟩ := C96_accepts hG ho hds hc hd ha hf hk h3 h4 (apart_lines hb us)
    refine ⟨al, _, pieces, [], a1, fun c hc => ?_, a2, a3, a5⟩
    rcases (apart_lines hb us).chars c hc with h | ⟨u, hu, hc⟩
    · exact free_ascii h
    · exact h4 u hu c hc

/-- C96 for the sentences of the source grammar, given that the tables have every transition: every sentence whose terminals are spelled by
ASCII words has a text that is accepted.  Missing: tables with dropped transitions (`C28_false`); for those see `C96_exact`. -/
theorem C96_sentences_partial (hG : Generated hash rx ord ps start g l) (ho : Reorders ord) (hds : DistinctSpellings g)
    (hc : NoCollisions hash g (Lalr.depthOf g)) (hA : AllTransitions g l.states l.action l.goto)
    (hd : Grammar.tokenDefs rx 0 g.tokens = .ok ds) (ha : AtomsOk (ds.map Prod.snd)) {b : Char} (hb : Free ds b) {ws : List Sym}
    (hS : Sentence (AstRule ps) start.name ws) (hw : ∀ x ∈ ws, ∃ u, Spells rx g x u ∧ ∀ c ∈ u, c.toNat < 128) :
    ∃ s f, IsTree g.prods start.name f ws ∧ ∀ fuel, ws.length + f.post.length < fuel → l.parse fuel s = .ok f.post := by
  have hok := hG.built.ok
  have hS' := hS
  rw [← Grammar.sentence_iff hok hG.built.ast hG.built.first (Grammar.start_ne hok hG.built.ast hG.built.first)] at hS'
  obtain ⟨f, h1, h2, h3⟩ := Forest.of_steps hS'.2 hS'.1
  have hf : IsTree g.prods start.name f ws := ⟨h1, h2, h3⟩
  obtain ⟨al, s, pieces, dropped, _, _, _, _, h⟩ := (C96_exact hG ho hds hc hd ha hb hf (C66_all hG.built hc hA hf)).mpr hw
  exact ⟨s, f, hf, h⟩

/-- **C96, conversely.**  Whatever text is accepted, each leaf of the tree answered with is spelled by a word. -/
theorem C96_leaves (hG : Generated hash rx ord ps start g l) (ho : Reorders ord) (hds : DistinctSpellings g)
    (hc : NoCollisions hash g (Lalr.depthOf g)) (hd : Grammar.tokenDefs rx 0 g.tokens = .ok ds) (ha : AtomsOk (ds.map Prod.snd))
    {fuel : Nat} {input : Str} {out : List Nat} (h : l.parse fuel input = .ok out) :
    ∃ f ws, IsTree g.prods start.name f ws ∧ f.post = out ∧ ∀ x ∈ ws, ∃ u, Spells rx g x u := by
  obtain ⟨_, hx, _⟩ := new_ok hG.new
  obtain ⟨ds', h1, h2⟩ := Grammar.lexer_ok hx
  obtain rfl : ds' = ds := Except.ok.inj (h1.symm.trans hd)
  have hD := Grammar.declares h1
  obtain ⟨al, pieces, cut, dropped, ws, _, hal, _, hm, hws, hcase⟩ := C33_exact hG ho hds hc hd input
  obtain ⟨al', hal', _, h11⟩ := C11_exact ho h2
  rw [hal] at hal'; cases hal'
  rcases hcase with ⟨_, _, he⟩ | ⟨_, _, hacc⟩
  · rw [he fuel] at h; cases h
  · obtain ⟨f, h3, _, h4⟩ := hacc _ _ h
    refine ⟨f, ws, h3, h4, fun x hx => ?_⟩
    have : some x ∈ pieces.map (pieceSym g ds') := by rw [hws]; exact List.mem_map_of_mem hx
    obtain ⟨p, hp, hpx⟩ := List.mem_map.mp this
    have hw := (munch_words hm).1
    rw [List.forall₂_map_left_iff, List.forall₂_map_right_iff, List.forall₂_same] at hw
    obtain ⟨hne, ht⟩ := hw p hp
    exact ⟨p.2.2, (spells_iff hD hne).mpr ⟨p.2.1, ((h11 ha).1 _ _ hne).mp ht, hpx⟩⟩

/-- **C96, literals.**  A literal that is not empty is spelled by its own text: literals are numbered before regexes. -/
theorem C96_literal (he : Expressible ps) (hg : Grammar.fromAst ps = .ok g) {s : Str} (hs : s ≠ []) (hin : .strLit s ∈ g.tokens) :
    Spells rx g (.strLit s) s := by
  have hgok := Grammar.gok_of_fromAst he hg
  obtain ⟨start, hst⟩ : ∃ start, ps.find? (fun p => p.isStart) = some start := by
    cases hf : ps.find? (fun p => p.isStart) with
    | none => simp [Grammar.fromAst, hf] at hg
    | some a => exact ⟨a, rfl⟩
  obtain ⟨g', hg', _, ⟨rest, hr, hsort, _⟩, _⟩ := C17_numbering hst
  rw [hg] at hg'; cases hg'
  obtain ⟨k, hk⟩ := List.getElem?_of_mem hin
  refine ⟨hs, k, hk, trivial, rfl, fun j y hj hy ht hdy => ?_⟩
  cases y with
  | strLit s' =>
    cases hdy
    have h1 := (C17_token_index he hg (.strLit s) j).mpr hy
    have h2 := (C17_token_index he hg (.strLit s) k).mpr hk
    rw [h1] at h2
    cases h2
    omega
  | regex r =>
    rw [hr] at hk hy
    cases j with
    | zero => simp at hy
    | succ j =>
      cases k with
      | zero => omega
      | succ k =>
        rw [List.getElem?_cons_succ] at hk hy
        obtain ⟨h1, h1'⟩ := List.getElem?_eq_some_iff.mp hy
        obtain ⟨h2, h2'⟩ := List.getElem?_eq_some_iff.mp hk
        have := List.pairwise_iff_getElem.mp hsort j k h1 h2 (by omega)
        rw [h1', h2'] at this
        simp [blt, BOrd.blt, Sym.rank] at this
  | nonTerm s => exact ht
  | epsilon => exact hdy
  | eof => exact hdy

/-- C96 for sentences of ASCII literals: each has a text.  Missing: as in `C96_sentences_partial`. -/
theorem C96_literals_partial (hG : Generated hash rx ord ps start g l) (ho : Reorders ord) (hds : DistinctSpellings g)
    (hc : NoCollisions hash g (Lalr.depthOf g)) (hA : AllTransitions g l.states l.action l.goto)
    (hd : Grammar.tokenDefs rx 0 g.tokens = .ok ds) (ha : AtomsOk (ds.map Prod.snd)) {b : Char} (hb : Free ds b) {ws : List Sym}
    (hS : Sentence (AstRule ps) start.name ws)
    (hw : ∀ x ∈ ws, ∃ u : Str, x = .strLit u ∧ u ≠ [] ∧ x ∈ g.tokens ∧ ∀ c ∈ u, c.toNat < 128) :
    ∃ s f, IsTree g.prods start.name f ws ∧ ∀ fuel, ws.length + f.post.length < fuel → l.parse fuel s = .ok f.post := by
  refine C96_sentences_partial hG ho hds hc hA hd ha hb hS fun x hx => ?_
  obtain ⟨u, rfl, h1, h2, h3⟩ := hw x hx
  exact ⟨u, C96_literal hG.expr hG.ast h1 h2, h3⟩

end

/-! ## Samples -/

theorem word_free {c : Char} (h : Blank c) : Free wordDefs c := by
  refine ⟨h, ?_⟩
  have hr : rangesOf wordDefs = [⟨120, 121⟩, ⟨121, 122⟩, ⟨97, 120⟩] := by decide
  rw [hr]
  rcases h with rfl | rfl <;> (unfold Mem; decide)

theorem word_spells : List.Forall₂ (Spells wordRx (lower wordAst)) [.strLit "x".toList, .regex "[a-w]+".toList] ["x".toList, "ab".toList] := by
  refine .cons (C96_literal word_expressible word_generated.ast (by simp) (by rw [word_tokens]; simp)) (.cons ⟨by simp, 5, ?_⟩ .nil)
  rw [word_tokens]
  have hid : ∀ c : Char, 97 ≤ c.toNat → c.toNat ≤ 119 → Matches (.cls [(97, 119)]) [c] := fun c h1 h2 => .cls (r := (97, 119)) (by simp) h1 (by simpa using h2)
  refine ⟨rfl, trivial, ⟨_, rfl, .plus (w₁ := ['a']) (w₂ := ['b']) (hid _ (by decide) (by decide))
    (.starCons (w₁ := ['b']) (w₂ := []) (hid _ (by decide) (by decide)) .starNil)⟩, fun j y hj hy ht hdy => ?_⟩
  have : j = 0 ∨ j = 1 ∨ j = 2 ∨ j = 3 ∨ j = 4 := by omega
  rcases this with rfl | rfl | rfl | rfl | rfl <;> cases hy
  · exact hdy
  · exact absurd hdy (by unfold Denotes; decide)
  · exact absurd hdy (by unfold Denotes; decide)
  · exact ht
  · exact ht

theorem word_tree : IsTree (lower wordAst).prods (startOf wordAst).name
    (.node 1 (.leaf (.strLit "x".toList) (.node 3 (.leaf (.regex "[a-w]+".toList) .nil) .nil)) .nil)
    [.strLit "x".toList, .regex "[a-w]+".toList] :=
  ⟨⟨⟨_, rfl, by decide +kernel⟩, ⟨trivial, ⟨_, rfl, by decide +kernel⟩, ⟨trivial, trivial⟩, trivial⟩, trivial⟩, by decide +kernel, rfl⟩

-- C96: the hypotheses for `S → "x" W | "y"`, `W → /[a-w]+/`, a sentence, its words, a text and the answer.
example : Generated id wordRx (fun _ l => l) wordAst (startOf wordAst) (lower wordAst) wordL ∧ Reorders (fun _ l => l) ∧
    DistinctSpellings (lower wordAst) ∧ NoCollisions id (lower wordAst) (Lalr.depthOf (lower wordAst)) ∧
    AllTransitions (lower wordAst) wordL.states wordL.action wordL.goto ∧
    Grammar.tokenDefs wordRx 0 (lower wordAst).tokens = .ok wordDefs ∧ AtomsOk (wordDefs.map Prod.snd) ∧ Free wordDefs ' ' ∧
    (∃ f ws us, IsTree (lower wordAst).prods (startOf wordAst).name f ws ∧ KeptTree (lower wordAst) f ∧
      Sentence (AstRule wordAst) (startOf wordAst).name ws ∧
      List.Forall₂ (Spells wordRx (lower wordAst)) ws us ∧ (∀ u ∈ us, ∀ c ∈ u, c.toNat < 128) ∧ Apart (Free wordDefs) us " x ab".toList ∧
      ws.length + f.post.length < 9 ∧ wordL.parse 9 " x ab".toList = .ok f.post) ∧
    Sentence (AstRule wordAst) (startOf wordAst).name [.strLit "y".toList] ∧ .strLit "y".toList ∈ (lower wordAst).tokens := by
  refine ⟨word_generated, reorders_id, word_distinct, noCollisions_id _ _, word_transitions, word_defs, word_atoms, word_free (.inl rfl),
    ⟨_, _, _, word_tree, C66_all word_generated.built (noCollisions_id _ _) word_transitions word_tree, sentence_of word_generated.expr word_generated.ast word_generated.first word_tree, word_spells,
      by decide, .blank (word_free (.inl rfl)) (.word (w := "x".toList) (word_free (.inl rfl)) (.last (w := "ab".toList))), by decide,
      ok_of (by decide +kernel)⟩, ?_, by rw [word_tokens]; simp⟩
  exact sentence_of word_generated.expr word_generated.ast word_generated.first (f := .node 2 (.leaf (.strLit "y".toList) .nil) .nil) ⟨⟨⟨_, rfl, by decide +kernel⟩, ⟨trivial, trivial⟩, trivial⟩, by decide +kernel, rfl⟩

/-! ## Witness -/

/-- `S → "a" /[a]/`. -/
def shadowAst : List Ast.Prod := [⟨"S".toList, [⟨[.strLit ['a'], .regex "[a]".toList], []⟩], true, []⟩]

/-- The regex crate on `[a]`. -/
def shadowRx (s : Str) : Option Hir := if s = "[a]".toList then some (.lit 97) else none

/-- The generated parser. -/
def shadowL : Lalr := (Lalr.new id shadowRx (fun _ l => l) (lower shadowAst)).toOption.getD ⟨⟨[], [], [], []⟩, ⟨⟨[], [], [], []⟩, [], []⟩, [], [], []⟩

theorem shadow_generated : Generated id shadowRx (fun _ l => l) shadowAst (startOf shadowAst) (lower shadowAst) shadowL :=
  ⟨expressibleB_sound (by decide +kernel), startOf_eq (by decide +kernel), ok_of_isSome (by decide +kernel),
    ok_of_isSome (by decide +kernel)⟩

theorem shadow_tokens : (lower shadowAst).tokens = [.eof, .strLit ['a'], .nonTerm "S".toList, .regex "[a]".toList] := by decide +kernel

theorem shadow_distinct : DistinctSpellings (lower shadowAst) := by
  unfold DistinctSpellings
  rw [shadow_tokens]
  intro s hs t ht h1 h2 h3
  simp only [List.mem_cons, List.not_mem_nil, or_false] at hs ht
  rcases hs with rfl | rfl | rfl | rfl <;> rcases ht with rfl | rfl | rfl | rfl <;>
    first | rfl | exact False.elim h1 | exact False.elim h2 | (revert h3; decide)

/-- The lexer tokens of `shadowAst`. -/
def shadowDefs : List (TokenDef × Hir) := [(⟨['a'], true, some 1⟩, .lit 97), (⟨"[a]".toList, true, some 3⟩, .lit 97)]

theorem shadow_defs : Grammar.tokenDefs shadowRx 0 (lower shadowAst).tokens = .ok shadowDefs := by
  rw [shadow_tokens]; rfl

theorem roots_in_yield {prods : List Production} {x : Sym} (hx : IsTerm x) : ∀ f : Forest, x ∈ f.roots prods → x ∈ f.yield
  | .nil, h => h
  | .leaf t rest, h => by
    rcases List.mem_cons.mp h with rfl | h
    · exact List.mem_cons_self
    · exact List.mem_cons_of_mem _ (roots_in_yield hx rest h)
  | .node p kids rest, h => by
    rcases List.mem_cons.mp h with rfl | h
    · exact hx.elim
    · exact List.mem_append_right _ (roots_in_yield hx rest h)

/-- C96 is false in general: with `S → "a" /[a]/` no text is accepted, though the grammar has a sentence, its tables have every
transition and the spellings are distinct: the only word of the regex is read as the literal. -/
theorem C96_false : Generated id shadowRx (fun _ l => l) shadowAst (startOf shadowAst) (lower shadowAst) shadowL ∧
    DistinctSpellings (lower shadowAst) ∧ AllTransitions (lower shadowAst) shadowL.states shadowL.action shadowL.goto ∧
    AtomsOk (shadowDefs.map Prod.snd) ∧ Sentence (AstRule shadowAst) (startOf shadowAst).name [.strLit ['a'], .regex "[a]".toList] ∧
    Denotes shadowRx (.strLit ['a']) ['a'] ∧ Denotes shadowRx (.regex "[a]".toList) ['a'] ∧
    ∀ fuel input out, shadowL.parse fuel input ≠ .ok out := by
  have ha : AtomsOk (shadowDefs.map Prod.snd) := atomsOk_of (al := [⟨97, 98⟩]) rfl (by decide +kernel)
  have hprods : (lower shadowAst).prods =
      [⟨"S'".toList, [.nonTerm "S".toList], none, none⟩, ⟨"S".toList, [.strLit ['a'], .regex "[a]".toList], some [], some []⟩] := by decide +kernel
  have hname : (startOf shadowAst).name = "S".toList := by decide +kernel
  refine ⟨shadow_generated, shadow_distinct, transitions_of shadow_generated.built (noCollisions_id _ _)
    (ok_of_isSome (d := []) (by decide +kernel)) (by decide +kernel), ha, ?_, rfl, ⟨_, rfl, .lit rfl⟩, fun fuel input out h => ?_⟩
  · exact sentence_of shadow_generated.expr shadow_generated.ast shadow_generated.first (f := .node 1 (.leaf (.strLit ['a']) (.leaf (.regex "[a]".toList) .nil)) .nil)
      ⟨⟨⟨_, rfl, by decide +kernel⟩, ⟨trivial, trivial, trivial⟩, trivial⟩, by decide +kernel, rfl⟩
  · obtain ⟨f, ws, ⟨h1, h2, rfl⟩, _, h3⟩ := C96_leaves shadow_generated reorders_id shadow_distinct (noCollisions_id _ _) shadow_defs ha h
    rw [hname] at h2
    rw [hprods] at h1 h2
    have hin : .regex "[a]".toList ∈ f.yield := by
      cases f with
      | nil => cases h2
      | leaf t rest =>
        obtain ⟨rfl, _⟩ := List.cons.inj h2
        exact h1.1.elim
      | node p kids rest =>
        obtain ⟨⟨prod, hp, hk⟩, _⟩ := h1
        rcases p with _ | _ | p
        · simp [Forest.roots] at h2
        · cases hp
          exact List.mem_append_left _ (roots_in_yield (x := .regex "[a]".toList) trivial kids (by rw [← hk]; simp))
        · simp at hp
    obtain ⟨u, _, k, hk, _, ⟨hir, hr, hm⟩, hn⟩ := h3 _ hin
    rw [shadow_tokens] at hk hn
    cases hr
    have hk3 : 1 < k := by
      rcases k with _ | _ | k
      · cases hk
      · cases hk
      · omega
    refine hn 1 _ hk3 rfl trivial ?_
    cases hm with
    | lit e => exact congrArg (fun c => [c]) (Char.toNat_inj.mp (by rw [e]; rfl))

end Verif.Props
