import Verif.Proofs.IdleOk
import Verif.Props.Rename

/-! # Property: rules that nothing leads to do not matter (C88) -/

namespace Verif.Props
open Verif Verif.Spec

section
variable {H H' : Type} [DecidableEq H] [DecidableEq H'] {hash : List Item → H} {hash' : List Item → H'}
  {rx : Str → Option Hir} {ord ord' : Nfa.Order} {ps ps' : List Ast.Prod} {start start' : Ast.Prod} {g g' : Grammar}
  {extra : List (Str × List Sym)}

/-- **C88, construction.**  Adding rules for names that no rule mentions, with terminals that are there already, changes neither
whether a parser is built nor whether a conflict or a regex is the reason why not.  The added rules may mention anything, be
left recursive, ambiguous or undefined. -/
theorem C88_builds (he : Expressible ps) (he' : Expressible ps')
    (hf : ps.find? (fun p => p.isStart) = some start) (hf' : ps'.find? (fun p => p.isStart) = some start')
    (hg : Grammar.fromAst ps = .ok g) (hg' : Grammar.fromAst ps' = .ok g') (ho : Reorders ord) (ho' : Reorders ord')
    (hc : NoCollisions hash g (Lalr.depthOf g)) (hc' : NoCollisions hash' g' (Lalr.depthOf g'))
    (hs : start'.name = start.name) (ha : Adds ps ps' extra) (hi : Idle ps start.name extra) (hk : KnownTerms ps extra) :
    ((∃ l, Lalr.new hash rx ord g = .ok l) ↔ ∃ l, Lalr.new hash' rx ord' g' = .ok l) ∧
    (Lalr.new hash rx ord g = .error .conflict ↔ Lalr.new hash' rx ord' g' = .error .conflict) ∧
    (Lalr.new hash rx ord g = .error .badRegex ↔ Lalr.new hash' rx ord' g' = .error .badRegex) := by
  obtain ⟨σ, θ, hE⟩ := emb_of_adds he he' hf hf' hs ha hi hg hg'
  have hb := ha.buildable hi
  rw [← hs] at hb
  have hx : RegexesOk rx ps' ↔ RegexesOk rx ps := forall_congr' fun r => by rw [ha.hasRegex hk]
  have hbad : (∃ r, HasRegex ps r ∧ rx r = none) ↔ ∃ r, HasRegex ps' r ∧ rx r = none := by simp only [ha.hasRegex hk]
  obtain ⟨a1, a2, a3⟩ := new_iff (hash := hash) (rx := rx) he hf hg ho hc
  obtain ⟨b1, b2, b3⟩ := new_iff (hash := hash') (rx := rx) he' hf' hg' ho' hc'
  exact ⟨by rw [a1, b1, hx, hb, hE.clash, hs], by rw [a2, b2, hx, hb, hE.clash, hs], by rw [a3, b3, hbad]⟩

/-- **C88, tokens.**  The two parsers accept the same strings of terminals of the smaller grammar, with the same trees.  The added
rules may bring terminals of their own. -/
theorem C88_tokens {depth depth' : Nat} {action action' : Table Nat Action} {got got' : Table Str Nat}
    {states states' : List ItemSet}
    (hB : Built hash ps start g depth action got states) (hB' : Built hash' ps' start' g' depth' action' got' states')
    (hc : NoCollisions hash g depth) (hc' : NoCollisions hash' g' depth')
    (hs : start'.name = start.name) (ha : Adds ps ps' extra) (hi : Idle ps start.name extra) :
    ∃ σ : Nat ≃ Nat, (∀ i p, g.prods[i]? = some p → ∃ p', g'.prods[σ i]? = some p' ∧ p'.name = p.name ∧ p'.inputs = p.inputs) ∧
      ∀ ws w w', Numbers g w ws → Numbers g' w' ws → 0 ∉ w → 0 ∉ w' → ∀ rest rest' out,
        (∃ fuel, Lalr.parseIdx g action got fuel (w ++ 0 :: rest) = .ok out) ↔
          ∃ fuel, Lalr.parseIdx g' action' got' fuel (w' ++ 0 :: rest') = .ok (out.map σ) := by
  obtain ⟨σ, θ, hE⟩ := emb_of_adds hB.expr hB'.expr hB.first hB'.first hs ha hi hB.ast hB'.ast
  refine ⟨σ, hE.prod, fun ws w w' hn hn' h0 h0' rest rest' out => ?_⟩
  rw [C66_language hB hc hn h0, C66_language hB' hc' hn' h0', hs]
  exact hE.trees ((mem_tokens_iff hB.first hB.ast).2 (.inr (.inl rfl))) ws out

/-- **C88.**  The two parsers answer every text alike: with the same tree, or both with none. -/
theorem C88_text {l l' : Lalr} (hG : Generated hash rx ord ps start g l) (hG' : Generated hash' rx ord' ps' start' g' l')
    (ho : Reorders ord) (ho' : Reorders ord') (hds : DistinctSpellings g)
    (hc : NoCollisions hash g (Lalr.depthOf g)) (hc' : NoCollisions hash' g' (Lalr.depthOf g'))
    (hs : start'.name = start.name) (ha : Adds ps ps' extra) (hi : Idle ps start.name extra) (hk : KnownTerms ps extra) :
    ∃ σ : Nat ≃ Nat, (∀ i p, g.prods[i]? = some p → ∃ p', g'.prods[σ i]? = some p' ∧ p'.name = p.name ∧ p'.inputs = p.inputs) ∧
      ∀ input out, (∃ fuel, l.parse fuel input = .ok out) ↔ ∃ fuel, l'.parse fuel input = .ok (out.map σ) := by
  obtain ⟨σ, θ, hE⟩ := emb_of_adds hG.expr hG'.expr hG.first hG'.first hs ha hi hG.ast hG'.ast
  have ht := Adds.terms hG.first hG'.first ha hk hG.ast hG'.ast
  have hds' : DistinctSpellings g' := by
    intro s h1 t h2 k1 k2 h3
    have e1 := mem_termsOf.2 ⟨h1, k1⟩
    have e2 := mem_termsOf.2 ⟨h2, k2⟩
    rw [← ht, mem_termsOf] at e1 e2
    exact hds s e1.1 t e2.1 k1 k2 h3
  refine ⟨σ, hE.prod, fun input out => text_of_trees hG hG' ho ho' hds hds' hc hc' ht (fun ws _ out => ?_) input out⟩
  rw [hs]
  exact hE.trees ((mem_tokens_iff hG.first hG.ast).2 (.inr (.inl rfl))) ws out

end

/-! ## Sample -/

/-- `wordAst` with rules for `V`, which nothing mentions: left recursive, ambiguous, with an undefined nonterminal. -/
def idleAst : List Ast.Prod :=
  ⟨"V".toList, [⟨[.nonTerm "V".toList, .nonTerm "V".toList], []⟩, ⟨[.nonTerm "U".toList, .strLit "x".toList, .nonTerm "S".toList], []⟩],
    false, []⟩ :: wordAst

/-- The generated parser. -/
def idleL : Lalr := (Lalr.new id wordRx (fun _ l => l) (lower idleAst)).toOption.getD ⟨⟨[], [], [], []⟩, ⟨⟨[], [], [], []⟩, [], []⟩, [], [], []⟩

def idleRules : List (Str × List Sym) :=
  [("V".toList, [.nonTerm "V".toList, .nonTerm "V".toList]), ("V".toList, [.nonTerm "U".toList, .strLit "x".toList, .nonTerm "S".toList])]

theorem idle_generated : Generated id wordRx (fun _ l => l) idleAst (startOf idleAst) (lower idleAst) idleL :=
  ⟨expressibleB_sound (by decide +kernel), startOf_eq (by decide +kernel), ok_of_isSome (by decide +kernel),
    ok_of_isSome (by decide +kernel)⟩

theorem idle_adds : Adds wordAst idleAst idleRules := by unfold Adds; decide +kernel

theorem word_rules : rulesOf wordAst = [("S".toList, [.strLit "x".toList, .nonTerm "W".toList]), ("S".toList, [.strLit "y".toList]),
    ("W".toList, [.regex "[a-w]+".toList])] := by decide +kernel

theorem idle_idle : Idle wordAst (startOf wordAst).name idleRules := by
  have h0 : (startOf wordAst).name = "S".toList := by decide +kernel
  intro A r h
  have hA : A = "V".toList := by
    simp only [idleRules, List.mem_cons, Prod.mk.injEq, List.not_mem_nil, or_false] at h
    rcases h with h | h <;> exact h.1
  subst hA
  rw [h0, word_rules]
  refine ⟨by decide, fun B s hs => ?_⟩
  simp only [List.mem_cons, Prod.mk.injEq, List.not_mem_nil, or_false] at hs
  rcases hs with ⟨-, rfl⟩ | ⟨-, rfl⟩ | ⟨-, rfl⟩ <;> decide

theorem idle_known : KnownTerms wordAst idleRules := by
  intro A r h t ht hterm
  have : t = .strLit "x".toList := by
    simp only [idleRules, List.mem_cons, Prod.mk.injEq, List.not_mem_nil, or_false] at h
    rcases h with ⟨-, rfl⟩ | ⟨-, rfl⟩ <;> simp only [List.mem_cons, List.not_mem_nil, or_false] at ht
    · rcases ht with rfl | rfl <;> exact hterm.elim
    · rcases ht with rfl | rfl | rfl
      · exact hterm.elim
      · rfl
      · exact hterm.elim
  subst this
  exact ⟨"S".toList, _, by rw [word_rules]; exact List.mem_cons_self, List.mem_cons_self⟩

-- C88_builds, C88_tokens, C88_text: the hypotheses, and a text with its two trees.
example : Generated id wordRx (fun _ l => l) wordAst (startOf wordAst) (lower wordAst) wordL ∧
    Generated id wordRx (fun _ l => l) idleAst (startOf idleAst) (lower idleAst) idleL ∧ Reorders (fun _ l => l) ∧
    NoCollisions id (lower wordAst) (Lalr.depthOf (lower wordAst)) ∧
    NoCollisions id (lower idleAst) (Lalr.depthOf (lower idleAst)) ∧
    DistinctSpellings (lower wordAst) ∧ (startOf idleAst).name = (startOf wordAst).name ∧ Adds wordAst idleAst idleRules ∧
    Idle wordAst (startOf wordAst).name idleRules ∧ KnownTerms wordAst idleRules ∧
    wordL.parse 9 " x ab".toList = .ok [3, 1] ∧ idleL.parse 9 " x ab".toList = .ok [5, 3] :=
  ⟨word_generated, idle_generated, reorders_id, noCollisions_id _ _, noCollisions_id _ _, word_distinct, by decide +kernel, idle_adds,
    idle_idle, idle_known, ok_of (by decide +kernel), ok_of (by decide +kernel)⟩

theorem parse_mono {l : Lalr} {input : Str} {fuel : Nat} {r : Res (List Nat)} (k : Nat) (h : l.parse fuel input = r)
    (hne : r ≠ .error .outOfFuel) : l.parse (fuel + k) input = r := by
  unfold Lalr.parse at h ⊢
  cases h1 : l.lexer.lex input with
  | error e => rw [h1] at h; exact h
  | ok ts =>
    rw [h1] at h
    cases h2 : l.lexer.convertTokens ts with
    | error e => simp only [h2, bind, Except.bind] at h ⊢; exact h
    | ok ps =>
      simp only [h2, bind, Except.bind] at h ⊢
      exact Lalr.parseIdx_mono k h hne

/-- Terminals of the added rules do matter: `S → "a" "b"` accepts `ab`, and no longer when `T → "ab"` is added. -/
theorem C88_terminals : ∃ ps ps' extra l l', Generated id (fun _ => none) (fun _ l => l) ps (startOf ps) (lower ps) l ∧
    Generated id (fun _ => none) (fun _ l => l) ps' (startOf ps') (lower ps') l' ∧ (startOf ps').name = (startOf ps).name ∧
    Adds ps ps' extra ∧ Idle ps (startOf ps).name extra ∧
    l.parse 9 "ab".toList = .ok [1] ∧ ∀ fuel out, l'.parse fuel "ab".toList ≠ .ok out := by
  let ps : List Ast.Prod := [mkProd true "S" [["a", "b"]]]
  let ps' : List Ast.Prod := [mkProd true "S" [["a", "b"]], mkProd false "T" [["ab"]]]
  refine ⟨ps, ps', [("T".toList, [.strLit "ab".toList])], genL ps, genL ps',
    ⟨expressibleB_sound (by decide +kernel), startOf_eq (by decide +kernel), ok_of_isSome (by decide +kernel), ok_of_isSome (by decide +kernel)⟩,
    ⟨expressibleB_sound (by decide +kernel), startOf_eq (by decide +kernel), ok_of_isSome (by decide +kernel), ok_of_isSome (by decide +kernel)⟩,
    by decide +kernel, by unfold Adds; decide +kernel, ?_, ok_of (by decide +kernel), ?_⟩
  · intro A r h
    simp only [List.mem_singleton, Prod.mk.injEq] at h
    obtain ⟨rfl, rfl⟩ := h
    have h0 : (startOf ps).name = "S".toList := by decide +kernel
    have h1 : rulesOf ps = [("S".toList, [.strLit "a".toList, .strLit "b".toList])] := by decide +kernel
    rw [h0, h1]
    refine ⟨by decide, fun B s hs => ?_⟩
    simp only [List.mem_singleton, Prod.mk.injEq] at hs
    obtain ⟨-, rfl⟩ := hs
    decide
  · intro fuel out h
    have h1 : (genL ps').parse 9 "ab".toList = .error .invalidToken := error_of (by decide +kernel)
    have h2 := parse_mono 9 h (fun h => nomatch h)
    have h3 := parse_mono fuel h1 (fun h => nomatch h)
    rw [Nat.add_comm, h3] at h2
    cases h2

end Verif.Props
