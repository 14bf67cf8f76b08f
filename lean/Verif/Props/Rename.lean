import Verif.Proofs.RenameText
import Verif.Props.LexExact
import Verif.Props.Program

/-! # Property: neither the order of the rules nor the names of nonterminals matter (C87) -/

namespace Verif.Props
open Verif Verif.Spec

section
variable {H H' : Type} [DecidableEq H] [DecidableEq H'] {hash : List Item → H} {hash' : List Item → H'}
  {rx : Str → Option Hir} {ord ord' : Nfa.Order} {ps ps' : List Ast.Prod} {start start' : Ast.Prod} {g g' : Grammar}
  {ρ : Str ≃ Str}

/-- The reasons of the construction that do not depend on the order of the rules. -/
theorem new_iff (he : Expressible ps) (hst : ps.find? (fun p => p.isStart) = some start) (hg : Grammar.fromAst ps = .ok g)
    (ho : Reorders ord) (hh : NoCollisions hash g (Lalr.depthOf g)) :
    ((∃ l, Lalr.new hash rx ord g = .ok l) ↔ RegexesOk rx ps ∧ Buildable (AstRule ps) start.name ∧ ¬ Clash g) ∧
    (Lalr.new hash rx ord g = .error .conflict ↔ RegexesOk rx ps ∧ Buildable (AstRule ps) start.name ∧ Clash g) ∧
    (Lalr.new hash rx ord g = .error .badRegex ↔ ∃ r, HasRegex ps r ∧ rx r = none) := by
  have hno : RegexesOk rx ps → ¬ ∃ r, HasRegex ps r ∧ rx r = none := fun h ⟨r, h1, h2⟩ => by
    obtain ⟨x, h3, _⟩ := h r h1
    rw [h2] at h3; cases h3
  rcases new_cases (rx := rx) he hst hg ho hh with
    ⟨⟨l, h⟩, h1, h2, h3⟩ | ⟨h, h1⟩ | ⟨e, r, x, h, h1, h2, h3, h4⟩ | ⟨h, h1, A, h2, h3⟩ | ⟨h, h1, A, B, h2, h3, h4⟩ | ⟨h, h1, h2, h3⟩
  · rw [h]
    exact ⟨⟨fun _ => ⟨h1, h2, h3⟩, fun _ => ⟨l, rfl⟩⟩, ⟨(fun h => nomatch h), fun h => absurd h.2.2 h3⟩,
      ⟨(fun h => nomatch h), fun h => absurd h (hno h1)⟩⟩
  · rw [h]
    exact ⟨⟨(fun ⟨_, h⟩ => nomatch h), fun h => absurd h1 (hno h.1)⟩, ⟨(fun h => nomatch h), fun h => absurd h1 (hno h.1)⟩,
      ⟨fun _ => h1, fun _ => rfl⟩⟩
  · have hx : ¬ RegexesOk rx ps := fun hx => by
      obtain ⟨y, k1, k2⟩ := hx r h2
      rw [h3] at k1; cases k1
      exact k2 (Nfa.unsupported_of (h4.imp And.right And.right))
    have hn : ¬ ∃ r, HasRegex ps r ∧ rx r = none := fun ⟨r, k1, k2⟩ => h1 r k1 k2
    have he1 : e ≠ .conflict := by rintro rfl; rcases h4 with ⟨h, _⟩ | ⟨h, _⟩ <;> cases h
    have he2 : e ≠ .badRegex := by rintro rfl; rcases h4 with ⟨h, _⟩ | ⟨h, _⟩ <;> cases h
    rw [h]
    exact ⟨⟨(fun ⟨_, h⟩ => nomatch h), fun h => absurd h.1 hx⟩, ⟨(fun h => absurd (Except.error.inj h) he1), fun h => absurd h.1 hx⟩,
      ⟨(fun h => absurd (Except.error.inj h) he2), fun h => absurd h hn⟩⟩
  · have hb : ¬ Buildable (AstRule ps) start.name := fun hb => by
      obtain ⟨r, hr⟩ := hb.defined A h2
      exact h3 r hr
    rw [h]
    exact ⟨⟨(fun ⟨_, h⟩ => nomatch h), fun h => absurd h.2.1 hb⟩, ⟨(fun h => nomatch h), fun h => absurd h.2.1 hb⟩,
      ⟨(fun h => nomatch h), fun h => absurd h (hno h1)⟩⟩
  · have hb : ¬ Buildable (AstRule ps) start.name := fun hb => hb.first A B h2 h3 h4
    rw [h]
    exact ⟨⟨(fun ⟨_, h⟩ => nomatch h), fun h => absurd h.2.1 hb⟩, ⟨(fun h => nomatch h), fun h => absurd h.2.1 hb⟩,
      ⟨(fun h => nomatch h), fun h => absurd h (hno h1)⟩⟩
  · rw [h]
    exact ⟨⟨(fun ⟨_, h⟩ => nomatch h), fun h => absurd h3 h.2.2⟩, ⟨fun _ => ⟨h1, h2, h3⟩, fun _ => rfl⟩,
      ⟨(fun h => nomatch h), fun h => absurd h (hno h1)⟩⟩

omit [DecidableEq H] [DecidableEq H'] in
theorem iso_rules {σ θ : Nat ≃ Nat} {ρ' : Str ≃ Str} (hf : ps.find? (fun p => p.isStart) = some start)
    (hg : Grammar.fromAst ps = .ok g) (hI : Iso σ θ ρ' g g')
    (h2 : ∀ A r, (A, r) ∈ rulesOf ps → ρ' A = ρ A ∧ r.map (renameSym ρ') = r.map (renameSym ρ)) (i : Nat) (p : Production)
    (hp : g.prods[i]? = some p) (hi : i ≠ 0) : ∃ p', g'.prods[σ i]? = some p' ∧ p'.name = ρ p.name ∧
        p'.inputs = p.inputs.map (renameSym ρ) := by
  obtain ⟨p', k1, k2, k3⟩ := hI.at_ hp
  obtain ⟨_, e, -, -, hps, -⟩ := Grammar.fromAst_spec hf
  rw [hg] at e; cases e
  have hm : (p.name, p.inputs) ∈ rulesOf ps := by
    obtain ⟨j, rfl⟩ := Nat.exists_eq_succ_of_ne_zero hi
    rw [hps, List.getElem?_cons_succ] at hp
    have := List.mem_of_getElem? hp
    simp only [List.mem_flatMap, List.mem_map] at this
    obtain ⟨q, hq, b, hb, rfl⟩ := this
    exact List.mem_flatMap.2 ⟨q, hq, List.mem_map.2 ⟨b, hb, rfl⟩⟩
  obtain ⟨m1, m2⟩ := h2 _ _ hm
  exact ⟨p', k1, by rw [k2, m1], by rw [k3, m2]⟩

theorem map_rename_terms (ρ : Str → Str) : ∀ {ws : List Sym}, (∀ t ∈ ws, IsTerm t) → ws.map (renameSym ρ) = ws
  | [], _ => rfl
  | t :: ws, h => by
    rw [List.map_cons, renameSym_term ρ (h t (by simp)), map_rename_terms ρ fun t ht => h t (List.mem_cons_of_mem _ ht)]

omit [DecidableEq H] [DecidableEq H'] in
theorem iso_trees {σ θ : Nat ≃ Nat} {ρ' : Str ≃ Str} (hI : Iso σ θ ρ' g g') {S S' : Str} (hS : S' = ρ' S) {ws : List Sym}
    (hw : ∀ t ∈ ws, IsTerm t) (out : List Nat) :
    (∃ f, IsTree g.prods S f ws ∧ KeptTree g f ∧ f.post = out) ↔
      ∃ f, IsTree g'.prods S' f ws ∧ KeptTree g' f ∧ f.post = out.map σ := by
  constructor
  · rintro ⟨f, h1, h2, rfl⟩
    refine ⟨f.trans σ ρ', ?_, hI.keptTree h2, Forest.post_trans _ _ f⟩
    have := hI.isTree h1
    rwa [map_rename_terms _ hw, ← hS] at this
  · rintro ⟨f, h1, h2, h3⟩
    refine ⟨f.trans σ.symm ρ'.symm, ?_, hI.symm.keptTree h2, ?_⟩
    · have := hI.symm.isTree h1
      rwa [map_rename_terms _ hw, hS, Equiv.symm_apply_apply] at this
    · rw [Forest.post_trans, h3, List.map_map]
      conv => rhs; rw [← List.map_id out]
      congr 1; funext x; simp

/-- **C87, construction.**  A parser is built for a grammar just when one is built for the same rules in another order and with
other names of nonterminals; and so are the refusals because of a conflict or of a regex. -/
theorem C87_builds (he : Expressible ps) (he' : Expressible ps')
    (hf : ps.find? (fun p => p.isStart) = some start) (hf' : ps'.find? (fun p => p.isStart) = some start')
    (hg : Grammar.fromAst ps = .ok g) (hg' : Grammar.fromAst ps' = .ok g') (ho : Reorders ord) (ho' : Reorders ord')
    (hc : NoCollisions hash g (Lalr.depthOf g)) (hc' : NoCollisions hash' g' (Lalr.depthOf g'))
    (hs : start'.name = ρ start.name) (hr : Renamed ρ ps ps') :
    ((∃ l, Lalr.new hash rx ord g = .ok l) ↔ ∃ l, Lalr.new hash' rx ord' g' = .ok l) ∧
    (Lalr.new hash rx ord g = .error .conflict ↔ Lalr.new hash' rx ord' g' = .error .conflict) ∧
    (Lalr.new hash rx ord g = .error .badRegex ↔ Lalr.new hash' rx ord' g' = .error .badRegex) := by
  obtain ⟨σ, θ, ρ', hI, _, _⟩ := iso_of_renamed he he' hf hf' hs hr hg hg'
  have hb := hr.buildable start.name
  rw [← hs] at hb
  have hx := hr.regexesOk rx
  have hcl := hI.clash
  have hbad : (∃ r, HasRegex ps r ∧ rx r = none) ↔ ∃ r, HasRegex ps' r ∧ rx r = none := by simp only [hr.hasRegex]
  obtain ⟨a1, a2, a3⟩ := new_iff (hash := hash) (rx := rx) he hf hg ho hc
  obtain ⟨b1, b2, b3⟩ := new_iff (hash := hash') (rx := rx) he' hf' hg' ho' hc'
  exact ⟨by rw [a1, b1, hx, hb, hcl], by rw [a2, b2, hx, hb, hcl], by rw [a3, b3, hbad]⟩

/-- **C87, tokens.**  Two such parsers accept the same token strings, with the same trees. -/
theorem C87_tokens {depth depth' : Nat} {action action' : Table Nat Action} {got got' : Table Str Nat}
    {states states' : List ItemSet}
    (hB : Built hash ps start g depth action got states) (hB' : Built hash' ps' start' g' depth' action' got' states')
    (hc : NoCollisions hash g depth) (hc' : NoCollisions hash' g' depth')
    (hs : start'.name = ρ start.name) (hr : Renamed ρ ps ps') :
    ∃ σ : Nat ≃ Nat, (∀ i p, g.prods[i]? = some p → i ≠ 0 → ∃ p', g'.prods[σ i]? = some p' ∧ p'.name = ρ p.name ∧
        p'.inputs = p.inputs.map (renameSym ρ)) ∧
      ∀ ws w w', (∀ t ∈ ws, IsTerm t) → Numbers g w ws → Numbers g' w' ws → 0 ∉ w → 0 ∉ w' → ∀ rest rest' out,
        (∃ fuel, Lalr.parseIdx g action got fuel (w ++ 0 :: rest) = .ok out) ↔
          ∃ fuel, Lalr.parseIdx g' action' got' fuel (w' ++ 0 :: rest') = .ok (out.map σ) := by
  obtain ⟨σ, θ, ρ', hI, h1, h2⟩ := iso_of_renamed hB.expr hB'.expr hB.first hB'.first hs hr hB.ast hB'.ast
  refine ⟨σ, iso_rules hB.first hB.ast hI h2, fun ws w w' hw hn hn' h0 h0' rest rest' out => ?_⟩
  rw [C66_language hB hc hn h0, C66_language hB' hc' hn' h0']
  exact iso_trees hI (by rw [hs, h1]) hw out

/-- Parsers with the same terminals read every text as the same string of terminals, or both cannot name its tokens. -/
theorem same_words {l l' : Lalr} (hG : Generated hash rx ord ps start g l)
    (hG' : Generated hash' rx ord' ps' start' g' l') (ho : Reorders ord) (ho' : Reorders ord') (hds : DistinctSpellings g)
    (hds' : DistinctSpellings g') (hc : NoCollisions hash g (Lalr.depthOf g)) (hc' : NoCollisions hash' g' (Lalr.depthOf g'))
    (hterms : termsOf g.tokens = termsOf g'.tokens) (input : Str) :
    ∃ (ws : List Sym) (named : Prop), (∀ t ∈ ws, IsTerm t) ∧
      (∀ out, (∃ fuel, l.parse fuel input = .ok out) ↔ named ∧ ∃ f, IsTree g.prods start.name f ws ∧ KeptTree g f ∧ f.post = out) ∧
      ∀ out, (∃ fuel, l'.parse fuel input = .ok out) ↔ named ∧ ∃ f, IsTree g'.prods start'.name f ws ∧ KeptTree g' f ∧ f.post = out := by
  obtain ⟨ds, hd, _⟩ := Grammar.lexer_ok (new_ok hG.new).2.1
  obtain ⟨ds', hd', _⟩ := Grammar.lexer_ok (new_ok hG'.new).2.1
  have hsame := same_defs hd hd' hterms
  have hsame1 : List.Forall₂ SameDef ds ds' := hsame.imp fun _ _ h => h.1
  have hsnd : ds.map Prod.snd = ds'.map Prod.snd := by
    clear * - hsame1
    induction hsame1 with
    | nil => rfl
    | cons h _ ih => rw [List.map_cons, List.map_cons, h.2.2, ih]
  have hrng : rangesOf ds = rangesOf ds' := by
    have : ∀ ds : List (TokenDef × Hir), rangesOf ds = (ds.map Prod.snd).flatMap ranges := fun ds => by
      rw [List.flatMap_map]; rfl
    rw [this, this, hsnd]
  obtain ⟨al, pieces, cut, dropped, ws, k1, k2, k3, k4, k5, k6⟩ := C33_exact hG ho hds hc hd input
  obtain ⟨al', pieces', cut', dropped', ws', m1, m2, m3, m4, m5, m6⟩ := C33_exact hG' ho' hds' hc' hd' input
  rw [← hrng, k2] at m2; cases m2
  rw [← pToken_congr hsnd, ← pViable_congr hsnd] at m4
  obtain ⟨rfl, rfl⟩ := Lex.pmunch_unique k4 m4
  have hsym : pieceSym g ds = pieceSym g' ds' := by
    funext p
    unfold pieceSym
    rcases forall2_at hsame p.2.1 with ⟨e1, e2⟩ | ⟨d, d', e1, e2, -, k, k', s, e3, e4, e5, e6⟩
    · rw [e1, e2]; rfl
    · simp only [e1, e2, Option.bind_some, e3, e4, e5, e6]
  have hws : ws' = ws := (List.map_inj_right (fun _ _ => Option.some.inj)).mp (m5.symm.trans (hsym ▸ k5))
  subst hws
  have hterm : ∀ t ∈ ws', IsTerm t := by
    intro t ht
    have : some t ∈ pieces'.map (pieceSym g ds) := by rw [k5]; exact List.mem_map.2 ⟨t, ht, rfl⟩
    obtain ⟨p, _, hp⟩ := List.mem_map.1 this
    unfold pieceSym at hp
    cases hdp : ds[p.2.1]? with
    | none => rw [hdp] at hp; cases hp
    | some d =>
      rw [hdp] at hp
      obtain ⟨s, k, q1, q2, q3, _⟩ := k1.each d (List.mem_of_getElem? hdp)
      simp only [Option.bind_some, q3, q1, Option.some.injEq] at hp
      exact hp ▸ q2
  have hcar : (∃ ts, List.Forall₂ (Carries ds input) pieces' ts) ↔ ∃ ts, List.Forall₂ (Carries ds' input) pieces' ts := by
    have : Carries ds input = Carries ds' input := by
      funext p t; exact propext (carries_congr hsame1 input p t)
    rw [this]
  refine ⟨ws', ∃ ts, List.Forall₂ (Carries ds input) pieces' ts, hterm, fun out => ?_, fun out => ?_⟩
  · rcases k6 with ⟨q1, q2, q3⟩ | ⟨q1, q2, q3⟩
    · exact ⟨fun ⟨fuel, h⟩ => (by rw [q3] at h; cases h), fun h => absurd h.1 q1⟩
    · exact ⟨fun ⟨fuel, h⟩ => ⟨q1, q3 fuel out h⟩, fun ⟨_, f, f1, f2, f3⟩ => ⟨_, f3 ▸ q2 f f1 f2 _ (Nat.lt_succ_self _)⟩⟩
  · rw [hcar]
    rcases m6 with ⟨q1, q2, q3⟩ | ⟨q1, q2, q3⟩
    · exact ⟨fun ⟨fuel, h⟩ => (by rw [q3] at h; cases h), fun h => absurd h.1 q1⟩
    · exact ⟨fun ⟨fuel, h⟩ => ⟨q1, q3 fuel out h⟩, fun ⟨_, f, f1, f2, f3⟩ => ⟨_, f3 ▸ q2 f f1 f2 _ (Nat.lt_succ_self _)⟩⟩

/-- Parsers with the same terminals and the same trees answer every text alike. -/
theorem text_of_trees {l l' : Lalr} {σ : Nat → Nat} (hG : Generated hash rx ord ps start g l)
    (hG' : Generated hash' rx ord' ps' start' g' l') (ho : Reorders ord) (ho' : Reorders ord') (hds : DistinctSpellings g)
    (hds' : DistinctSpellings g') (hc : NoCollisions hash g (Lalr.depthOf g)) (hc' : NoCollisions hash' g' (Lalr.depthOf g'))
    (hterms : termsOf g.tokens = termsOf g'.tokens)
    (htrees : ∀ ws, (∀ t ∈ ws, IsTerm t) → ∀ out, (∃ f, IsTree g.prods start.name f ws ∧ KeptTree g f ∧ f.post = out) ↔
      ∃ f, IsTree g'.prods start'.name f ws ∧ KeptTree g' f ∧ f.post = out.map σ) (input : Str) (out : List Nat) :
    (∃ fuel, l.parse fuel input = .ok out) ↔ ∃ fuel, l'.parse fuel input = .ok (out.map σ) := by
  obtain ⟨ws, named, hw, h1, h2⟩ := same_words hG hG' ho ho' hds hds' hc hc' hterms input
  rw [h1, h2, htrees ws hw]

/-- **C87.**  Two such parsers answer every text alike: with the same tree, or both with none. -/
theorem C87_text {l l' : Lalr} (hG : Generated hash rx ord ps start g l) (hG' : Generated hash' rx ord' ps' start' g' l')
    (ho : Reorders ord) (ho' : Reorders ord') (hds : DistinctSpellings g)
    (hc : NoCollisions hash g (Lalr.depthOf g)) (hc' : NoCollisions hash' g' (Lalr.depthOf g'))
    (hs : start'.name = ρ start.name) (hr : Renamed ρ ps ps') :
    ∃ σ : Nat ≃ Nat, (∀ i p, g.prods[i]? = some p → i ≠ 0 → ∃ p', g'.prods[σ i]? = some p' ∧ p'.name = ρ p.name ∧
        p'.inputs = p.inputs.map (renameSym ρ)) ∧
      ∀ input out, (∃ fuel, l.parse fuel input = .ok out) ↔ ∃ fuel, l'.parse fuel input = .ok (out.map σ) := by
  obtain ⟨σ, θ, ρ', hI, h1, h2⟩ := iso_of_renamed hG.expr hG'.expr hG.first hG'.first hs hr hG.ast hG'.ast
  refine ⟨σ, iso_rules hG.first hG.ast hI h2, fun input out => ?_⟩
  obtain ⟨_, e, -, -, -, ht⟩ := Grammar.fromAst_spec hG.first
  rw [hG.ast] at e; cases e
  obtain ⟨_, e, -, -, -, ht'⟩ := Grammar.fromAst_spec hG'.first
  rw [hG'.ast] at e; cases e
  exact text_of_trees hG hG' ho ho' hds (hI.distinct_mono hds) hc hc' (hI.terms ht ht') (fun ws hw out => iso_trees hI (by rw [hs, h1]) hw out)
    input out

end

/-! ## Sample -/

/-- `wordAst` with the two names exchanged and the rules in another order: `S → /[a-w]+/`, `W → "y" | "x" S`, with other types,
code and parameters. -/
def drowAst : List Ast.Prod :=
  [⟨"S".toList, [⟨[.regex "[a-w]+".toList], "1".toList⟩], false, "number".toList⟩,
   ⟨"W".toList, [⟨[.strLit "y".toList], "2".toList⟩, ⟨[.strLit "x".toList, .nonTerm "S".toList], "3".toList⟩], true, "U".toList⟩]

/-- The generated parser. -/
def drowL : Lalr := (Lalr.new id wordRx (fun _ l => l) (lower drowAst)).toOption.getD ⟨⟨[], [], [], []⟩, ⟨⟨[], [], [], []⟩, [], []⟩, [], [], []⟩

/-- The exchange of the two names. -/
def swapSW : Str ≃ Str := Equiv.swap "S".toList "W".toList

theorem drow_expressible : Expressible drowAst := expressibleB_sound (by decide +kernel)

theorem drow_generated : Generated id wordRx (fun _ l => l) drowAst (startOf drowAst) (lower drowAst) drowL :=
  ⟨drow_expressible, startOf_eq (by decide +kernel), ok_of_isSome (by decide +kernel),
    ok_of_isSome (by decide +kernel)⟩

theorem drow_renamed : Renamed swapSW wordAst drowAst := by
  unfold Renamed
  decide +kernel

-- C87_builds, C87_tokens: the hypotheses; the productions and the tokens have other numbers in the two grammars.
example : (startOf drowAst).name = swapSW (startOf wordAst).name ∧ Renamed swapSW wordAst drowAst ∧
    NoCollisions id (lower wordAst) (Lalr.depthOf (lower wordAst)) ∧
    NoCollisions id (lower drowAst) (Lalr.depthOf (lower drowAst)) ∧
    Built id wordAst (startOf wordAst) (lower wordAst) (Lalr.depthOf (lower wordAst)) wordL.action wordL.goto wordL.states ∧
    Built id drowAst (startOf drowAst) (lower drowAst) (Lalr.depthOf (lower drowAst)) drowL.action drowL.goto drowL.states ∧
    (lower wordAst).prods ≠ (lower drowAst).prods :=
  ⟨by decide +kernel, drow_renamed, noCollisions_id _ _, noCollisions_id _ _, word_generated.built, drow_generated.built,
    by decide +kernel⟩

-- C87_text: the hypotheses, and a text with its two trees.
example : Generated id wordRx (fun _ l => l) wordAst (startOf wordAst) (lower wordAst) wordL ∧
    Generated id wordRx (fun _ l => l) drowAst (startOf drowAst) (lower drowAst) drowL ∧ Reorders (fun _ l => l) ∧
    DistinctSpellings (lower wordAst) ∧ (startOf drowAst).name = swapSW (startOf wordAst).name ∧
    wordL.parse 9 " x ab".toList = .ok [3, 1] ∧ drowL.parse 9 " x ab".toList = .ok [1, 3] :=
  ⟨word_generated, drow_generated, reorders_id, word_distinct, by decide +kernel, ok_of (by decide +kernel), ok_of (by decide +kernel)⟩

-- C87_builds: renaming keeps a conflict.
example : Lalr.new id wordRx (fun _ l => l) (lower [mkProd true "S" [["E"], ["F"]], mkProd false "E" [["x"]], mkProd false "F" [["x"]]]) =
      .error .conflict ∧
    Renamed (Equiv.swap "S".toList "F".toList) [mkProd true "S" [["E"], ["F"]], mkProd false "E" [["x"]], mkProd false "F" [["x"]]]
      [mkProd false "E" [["x"]], mkProd true "F" [["S"], ["E"]], mkProd false "S" [["x"]]] :=
  ⟨error_of (by decide +kernel), by unfold Renamed; decide +kernel⟩

end Verif.Props
