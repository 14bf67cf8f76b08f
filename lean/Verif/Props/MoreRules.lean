import Verif.Proofs.MoreRules
import Verif.Props.Idle

/-! # Property: adding rules loses no text (C99) -/

namespace Verif.Props
open Verif Verif.Spec

section
variable {H H' : Type} [DecidableEq H] [DecidableEq H'] {hash : List Item → H} {hash' : List Item → H'}
  {rx : Str → Option Hir} {ord ord' : Nfa.Order} {ps ps' : List Ast.Prod} {start start' : Ast.Prod} {g g' : Grammar}
  {extra : List (Str × List Sym)}

omit [DecidableEq H] [DecidableEq H'] in
theorem distinct_adds (hf : ps.find? (fun p => p.isStart) = some start) (hf' : ps'.find? (fun p => p.isStart) = some start')
    (ha : Adds ps ps' extra) (hk : KnownTerms ps extra) (hg : Grammar.fromAst ps = .ok g) (hg' : Grammar.fromAst ps' = .ok g')
    (hds : DistinctSpellings g) : DistinctSpellings g' := by
  have ht := Adds.terms hf hf' ha hk hg hg'
  intro s h1 t h2 k1 k2 h3
  have e1 := mem_termsOf.2 ⟨h1, k1⟩
  have e2 := mem_termsOf.2 ⟨h2, k2⟩
  rw [← ht, mem_termsOf] at e1 e2
  exact hds s e1.1 t e2.1 k1 k2 h3

/-- C99, tokens, given that the tables of the larger grammar have every transition: whatever string of terminals the parser of the
smaller grammar accepts, that of the larger one accepts, with the same tree.
Missing: tables with dropped transitions (`C99_false`); for those see `C99_exact`. -/
theorem C99_tokens_partial {depth depth' : Nat} {action action' : Table Nat Action} {got got' : Table Str Nat}
    {states states' : List ItemSet}
    (hB : Built hash ps start g depth action got states) (hB' : Built hash' ps' start' g' depth' action' got' states')
    (hc : NoCollisions hash g depth) (hc' : NoCollisions hash' g' depth') (hA' : AllTransitions g' states' action' got')
    (hs : start'.name = start.name) (ha : Adds ps ps' extra) :
    ∃ σ : Nat ≃ Nat, (∀ i p, g.prods[i]? = some p → ∃ p', g'.prods[σ i]? = some p' ∧ p'.name = p.name ∧ p'.inputs = p.inputs) ∧
      ∀ ws w w', Numbers g w ws → Numbers g' w' ws → 0 ∉ w → 0 ∉ w' → ∀ rest rest' out,
        (∃ fuel, Lalr.parseIdx g action got fuel (w ++ 0 :: rest) = .ok out) →
          ∃ fuel, Lalr.parseIdx g' action' got' fuel (w' ++ 0 :: rest') = .ok (out.map σ) := by
  obtain ⟨σ, hσ⟩ := places_of_adds hB.first hB'.first hs ha hB.ast hB'.ast
  refine ⟨σ, hσ, fun ws w w' hn hn' h0 h0' rest rest' out => ?_⟩
  rw [C66_language hB hc hn h0, C66_language hB' hc' hn' h0', hs]
  rintro ⟨f, h1, -, rfl⟩
  have := isTree_places hσ h1
  exact ⟨_, this, C66_all hB' hc' hA' (by rw [hs]; exact this), Emb.post_renum _ f⟩

/-- **C99, exactly.**  Where the parser of the smaller grammar answers a text with a tree, that tree is one of the larger grammar, and its
parser answers with it just when the transitions along it are kept there. -/
theorem C99_exact {l l' : Lalr} (hG : Generated hash rx ord ps start g l) (hG' : Generated hash' rx ord' ps' start' g' l')
    (ho : Reorders ord) (ho' : Reorders ord') (hds : DistinctSpellings g)
    (hc : NoCollisions hash g (Lalr.depthOf g)) (hc' : NoCollisions hash' g' (Lalr.depthOf g'))
    (hs : start'.name = start.name) (ha : Adds ps ps' extra) (hk : KnownTerms ps extra) :
    ∃ σ : Nat ≃ Nat, (∀ i p, g.prods[i]? = some p → ∃ p', g'.prods[σ i]? = some p' ∧ p'.name = p.name ∧ p'.inputs = p.inputs) ∧
      ∀ input out, (∃ fuel, l.parse fuel input = .ok out) →
        ∃ ws f f', IsTree g.prods start.name f ws ∧ f.post = out ∧ IsTree g'.prods start.name f' ws ∧ f'.post = out.map σ ∧
          ((∃ fuel, l'.parse fuel input = .ok (out.map σ)) ↔ ∃ f', IsTree g'.prods start.name f' ws ∧ f'.post = out.map σ ∧ KeptTree g' f') := by
  obtain ⟨σ, hσ⟩ := places_of_adds hG.first hG'.first hs ha hG.ast hG'.ast
  have ht := Adds.terms hG.first hG'.first ha hk hG.ast hG'.ast
  have hds' := distinct_adds hG.first hG'.first ha hk hG.ast hG'.ast hds
  refine ⟨σ, hσ, fun input out h => ?_⟩
  obtain ⟨ws, named, -, h1, h2⟩ := same_words hG hG' ho ho' hds hds' hc hc' ht input
  obtain ⟨hn, f, f1, f2, f3⟩ := (h1 out).1 h
  refine ⟨ws, f, _, f1, f3, isTree_places hσ f1, by rw [Emb.post_renum, f3], ?_⟩
  rw [h2, hs]
  exact ⟨fun ⟨_, f, k1, k2, k3⟩ => ⟨f, k1, k3, k2⟩, fun ⟨f, k1, k3, k2⟩ => ⟨hn, f, k1, k2, k3⟩⟩

/-- C99, given that the tables of the larger grammar have every transition: whatever text the parser of the smaller grammar accepts, that
of the larger one accepts with the same tree.  Missing: tables with dropped transitions (`C99_false`); for those see `C99_exact`. -/
theorem C99_text_partial {l l' : Lalr} (hG : Generated hash rx ord ps start g l) (hG' : Generated hash' rx ord' ps' start' g' l')
    (ho : Reorders ord) (ho' : Reorders ord') (hds : DistinctSpellings g)
    (hc : NoCollisions hash g (Lalr.depthOf g)) (hc' : NoCollisions hash' g' (Lalr.depthOf g'))
    (hA' : AllTransitions g' l'.states l'.action l'.goto)
    (hs : start'.name = start.name) (ha : Adds ps ps' extra) (hk : KnownTerms ps extra) :
    ∃ σ : Nat ≃ Nat, (∀ i p, g.prods[i]? = some p → ∃ p', g'.prods[σ i]? = some p' ∧ p'.name = p.name ∧ p'.inputs = p.inputs) ∧
      ∀ input out, (∃ fuel, l.parse fuel input = .ok out) → ∃ fuel, l'.parse fuel input = .ok (out.map σ) := by
  obtain ⟨σ, hσ, h⟩ := C99_exact hG hG' ho ho' hds hc hc' hs ha hk
  refine ⟨σ, hσ, fun input out hp => ?_⟩
  obtain ⟨ws, f, f', _, _, h1, h2, h3⟩ := h input out hp
  exact h3.2 ⟨f', h1, h2, C66_all hG'.built hc' hA' (by rw [hs]; exact h1)⟩

/-- C99, back, given that the tables of the smaller grammar have every transition: where the parser of the larger grammar answers a
text with a tree without added rules, that of the smaller one answers with that tree.
Missing: tables with dropped transitions (`C28_false`). -/
theorem C99_back_partial {l l' : Lalr} (hG : Generated hash rx ord ps start g l) (hG' : Generated hash' rx ord' ps' start' g' l')
    (ho : Reorders ord) (ho' : Reorders ord') (hds : DistinctSpellings g)
    (hc : NoCollisions hash g (Lalr.depthOf g)) (hc' : NoCollisions hash' g' (Lalr.depthOf g'))
    (hA : AllTransitions g l.states l.action l.goto)
    (hs : start'.name = start.name) (ha : Adds ps ps' extra) (hk : KnownTerms ps extra) :
    ∃ σ : Nat ≃ Nat, (∀ i p, g.prods[i]? = some p → ∃ p', g'.prods[σ i]? = some p' ∧ p'.name = p.name ∧ p'.inputs = p.inputs) ∧
      ∀ input out, (∀ k ∈ out, k < g.prods.length) → (∃ fuel, l'.parse fuel input = .ok (out.map σ)) →
        ∃ fuel, l.parse fuel input = .ok out := by
  obtain ⟨σ, hσ⟩ := places_of_adds hG.first hG'.first hs ha hG.ast hG'.ast
  have ht := Adds.terms hG.first hG'.first ha hk hG.ast hG'.ast
  have hds' := distinct_adds hG.first hG'.first ha hk hG.ast hG'.ast hds
  refine ⟨σ, hσ, fun input out hr h => ?_⟩
  obtain ⟨ws, named, -, h1, h2⟩ := same_words hG hG' ho ho' hds hds' hc hc' ht input
  obtain ⟨hn, f, f1, f2, f3⟩ := (h2 _).1 h
  rw [hs] at f1
  obtain ⟨k1, k2⟩ := isTree_places_back hσ f1 f3 hr
  exact (h1 out).2 ⟨hn, _, k1, C66_all hG.built hc hA k1, k2⟩

end

/-! ## Sample -/

/-- `wordAst` with two rules more, which make it recursive. -/
def moreAst : List Ast.Prod :=
  [⟨"W".toList, [⟨[.strLit "x".toList, .nonTerm "W".toList], []⟩], false, []⟩,
    ⟨"S".toList, [⟨[.regex "[a-w]+".toList, .nonTerm "S".toList], []⟩], false, []⟩] ++ wordAst

/-- The generated parser. -/
def moreL : Lalr := (Lalr.new id wordRx (fun _ l => l) (lower moreAst)).toOption.getD ⟨⟨[], [], [], []⟩, ⟨⟨[], [], [], []⟩, [], []⟩, [], [], []⟩

def moreRules : List (Str × List Sym) :=
  [("W".toList, [.strLit "x".toList, .nonTerm "W".toList]),
    ("S".toList, [.regex "[a-w]+".toList, .nonTerm "S".toList])]

theorem more_generated : Generated id wordRx (fun _ l => l) moreAst (startOf moreAst) (lower moreAst) moreL :=
  ⟨expressibleB_sound (by decide +kernel), startOf_eq (by decide +kernel), ok_of_isSome (by decide +kernel),
    ok_of_isSome (by decide +kernel)⟩

theorem more_transitions : AllTransitions (lower moreAst) moreL.states moreL.action moreL.goto :=
  transitions_of more_generated.built (noCollisions_id _ _) (ok_of_isSome (d := []) (by decide +kernel)) (by decide +kernel)

theorem more_adds : Adds wordAst moreAst moreRules := by unfold Adds; decide +kernel

theorem more_known : KnownTerms wordAst moreRules := by
  intro A r h t ht hterm
  have : t = .strLit "x".toList ∨ t = .regex "[a-w]+".toList := by
    simp only [moreRules, List.mem_cons, Prod.mk.injEq, List.not_mem_nil, or_false] at h
    rcases h with ⟨-, rfl⟩ | ⟨-, rfl⟩ <;> simp only [List.mem_cons, List.not_mem_nil, or_false] at ht
    · rcases ht with rfl | rfl
      · exact .inl rfl
      · exact hterm.elim
    · rcases ht with rfl | rfl
      · exact .inr rfl
      · exact hterm.elim
  rcases this with rfl | rfl
  · exact ⟨"S".toList, _, by rw [word_rules]; exact List.mem_cons_self, List.mem_cons_self⟩
  · exact ⟨"W".toList, _, by rw [word_rules]; exact List.mem_cons_of_mem _ (List.mem_cons_of_mem _ List.mem_cons_self), List.mem_cons_self⟩

-- C99_tokens_partial, C99_exact, C99_text_partial, C99_back_partial: the hypotheses, a text with its two trees, and one that only the
-- larger grammar has.
example : Generated id wordRx (fun _ l => l) wordAst (startOf wordAst) (lower wordAst) wordL ∧
    Generated id wordRx (fun _ l => l) moreAst (startOf moreAst) (lower moreAst) moreL ∧ Reorders (fun _ l => l) ∧
    NoCollisions id (lower wordAst) (Lalr.depthOf (lower wordAst)) ∧
    NoCollisions id (lower moreAst) (Lalr.depthOf (lower moreAst)) ∧
    DistinctSpellings (lower wordAst) ∧ (startOf moreAst).name = (startOf wordAst).name ∧ Adds wordAst moreAst moreRules ∧
    KnownTerms wordAst moreRules ∧ AllTransitions (lower wordAst) wordL.states wordL.action wordL.goto ∧
    AllTransitions (lower moreAst) moreL.states moreL.action moreL.goto ∧
    wordL.parse 9 " x ab".toList = .ok [3, 1] ∧ moreL.parse 9 " x ab".toList = .ok [5, 3] ∧
    wordL.parse 19 "b ab x x ab".toList = .error .invalidToken ∧ moreL.parse 19 "b ab x x ab".toList = .ok [5, 1, 3, 2, 2] :=
  ⟨word_generated, more_generated, reorders_id, noCollisions_id _ _, noCollisions_id _ _, word_distinct, by decide +kernel, more_adds,
    more_known, word_transitions, more_transitions, ok_of (by decide +kernel), ok_of (by decide +kernel), error_of (by decide +kernel),
    ok_of (by decide +kernel)⟩

/-- `S → "x" B "p" | "b" C "r"`, `B → "b" C`, `C → "c"`. -/
def twoAst : List Ast.Prod :=
  [mkProd true "S" [["x", "B", "p"], ["b", "C", "r"]], mkProd false "B" [["b", "C"]], mkProd false "C" [["c"]]]

/-- The same and `S → "r" B "x"`. -/
def twoMoreAst : List Ast.Prod :=
  [mkProd true "S" [["x", "B", "p"], ["b", "C", "r"], ["r", "B", "x"]], mkProd false "B" [["b", "C"]], mkProd false "C" [["c"]]]

/-- C99 is false in general: `S → "x" B "p" | "b" C "r"`, `B → "b" C`, `C → "c"` accepts `x b c p`, and no longer when
`S → "r" B "x"` is added, though a parser is built for both. -/
theorem C99_false : ∃ ps ps' extra l l', Generated id (fun _ => none) (fun _ l => l) ps (startOf ps) (lower ps) l ∧
    Generated id (fun _ => none) (fun _ l => l) ps' (startOf ps') (lower ps') l' ∧ DistinctSpellings (lower ps) ∧
    (startOf ps').name = (startOf ps).name ∧ Adds ps ps' extra ∧ KnownTerms ps extra ∧
    l.parse 9 "x b c p".toList = .ok [4, 3, 1] ∧ ∀ fuel out, l'.parse fuel "x b c p".toList ≠ .ok out := by
  refine ⟨twoAst, twoMoreAst, [("S".toList, [.strLit "r".toList, .nonTerm "B".toList, .strLit "x".toList])], genL twoAst, genL twoMoreAst,
    ⟨expressibleB_sound (by decide +kernel), startOf_eq (by decide +kernel), ok_of_isSome (by decide +kernel), ok_of_isSome (by decide +kernel)⟩,
    ⟨expressibleB_sound (by decide +kernel), startOf_eq (by decide +kernel), ok_of_isSome (by decide +kernel), ok_of_isSome (by decide +kernel)⟩,
    ?_, by decide +kernel, by unfold Adds; decide +kernel, ?_, ok_of (by decide +kernel), ?_⟩
  · have h1 : (lower twoAst).tokens = [.eof, .strLit "b".toList, .strLit "c".toList, .strLit "p".toList, .strLit "r".toList,
        .strLit "x".toList, .nonTerm "B".toList, .nonTerm "C".toList, .nonTerm "S".toList] := by decide +kernel
    unfold DistinctSpellings
    rw [h1]
    intro s hs t ht h1 h2 h3
    simp only [List.mem_cons, List.not_mem_nil, or_false] at hs ht
    rcases hs with rfl | rfl | rfl | rfl | rfl | rfl | rfl | rfl | rfl <;>
      rcases ht with rfl | rfl | rfl | rfl | rfl | rfl | rfl | rfl | rfl <;>
      first | rfl | exact False.elim h1 | exact False.elim h2 | (revert h3; decide)
  · have h1 : rulesOf twoAst = [("S".toList, [.strLit "x".toList, .nonTerm "B".toList, .strLit "p".toList]),
        ("S".toList, [.strLit "b".toList, .nonTerm "C".toList, .strLit "r".toList]),
        ("B".toList, [.strLit "b".toList, .nonTerm "C".toList]), ("C".toList, [.strLit "c".toList])] := by decide +kernel
    intro A r h t ht hterm
    simp only [List.mem_singleton, Prod.mk.injEq] at h
    obtain ⟨rfl, rfl⟩ := h
    rw [h1]
    simp only [List.mem_cons, List.not_mem_nil, or_false] at ht
    rcases ht with rfl | rfl | rfl
    · exact ⟨_, _, List.mem_cons_of_mem _ List.mem_cons_self, by simp⟩
    · exact hterm.elim
    · exact ⟨_, _, List.mem_cons_self, by simp⟩
  · intro fuel out h
    have h1 : (genL twoMoreAst).parse 9 "x b c p".toList = .error .invalidToken := error_of (by decide +kernel)
    have h2 := parse_mono 9 h (fun h => nomatch h)
    have h3 := parse_mono fuel h1 (fun h => nomatch h)
    rw [Nat.add_comm, h3] at h2
    cases h2

end Verif.Props
