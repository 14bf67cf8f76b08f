import Verif.Spec.Cfg
import Verif.Proofs.GrammarOk
import Verif.Proofs.FirstSpec
import Verif.Model.Parse

/-! # Properties C17-C19: grammar numbering and FIRST -/

namespace Verif.Props
open Verif Spec

/-! ## C17 -/

/-- C17.  The numbering of productions and tokens. -/
theorem C17_numbering {ps : List Ast.Prod} {start : Ast.Prod}
    (hs : ps.find? (fun p => p.isStart) = some start) :
    ∃ g, Grammar.fromAst ps = .ok g ∧
      g.prods = ⟨start.name ++ "'".toList, [.nonTerm start.name], none, none⟩ ::
        ps.flatMap (fun p => p.bodies.map fun b =>
          ⟨p.name, b.inputs.map Ast.InSym.lower, some b.mapping, some p.tsCode⟩) ∧
      (∃ rest, g.tokens = .eof :: rest ∧ Sorted rest ∧ ∀ s, s ∈ rest ↔ ∃ p ∈ g.prods, s ∈ p.inputs) ∧
      (∀ A l, g.productionIter A = .ok l ↔ l ≠ [] ∧ l.Pairwise (· < ·) ∧
        ∀ i, i ∈ l ↔ ∃ p, g.prods[i]? = some p ∧ p.name = A) ∧
      (∀ A, g.productionIter A = .error .undefinedNonTerminal ↔ ∀ p ∈ g.prods, p.name ≠ A) := by
  obtain ⟨g, h1, _, h3, h4, h5⟩ := Grammar.fromAst_spec hs
  refine ⟨g, h1, h4, ⟨_, h5, sorted_ofList _, fun s => by rw [mem_ofList, List.mem_flatMap]⟩, ?_, ?_⟩
  · intro A l
    unfold Grammar.productionIter
    constructor
    · intro h
      cases hm : mget A g.nameMap with
      | none => simp [hm] at h
      | some l' =>
        simp only [hm] at h; cases h
        exact (h3.2 A).1 _ hm
    · rintro ⟨hne, hp, hl⟩
      cases hm : mget A g.nameMap with
      | none =>
        obtain ⟨i, hi⟩ := List.exists_mem_of_ne_nil l hne
        obtain ⟨p, hp, hn⟩ := (hl i).mp hi
        exact absurd hn ((h3.2 A).2 hm p (List.mem_of_getElem? hp))
      | some l' =>
        obtain ⟨_, g2, g3⟩ := (h3.2 A).1 _ hm
        have : l' = l := sorted_ext (by simpa [Sorted, blt, BOrd.blt] using g2)
          (by simpa [Sorted, blt, BOrd.blt] using hp) fun i => (g3 i).trans (hl i).symm
        rw [this]
  · intro A
    unfold Grammar.productionIter
    cases hm : mget A g.nameMap with
    | none => simpa using (h3.2 A).2 hm
    | some l =>
      simp only [reduceCtorEq, false_iff, not_forall, not_not]
      obtain ⟨g1, _, g3⟩ := (h3.2 A).1 _ hm
      obtain ⟨i, hi⟩ := List.exists_mem_of_ne_nil l g1
      obtain ⟨p, hp, hn⟩ := (g3 i).mp hi
      exact ⟨p, List.mem_of_getElem? hp, hn⟩

/-- C17.  Without a start production the construction panics, and in no other case. -/
theorem C17_no_start (ps : List Ast.Prod) :
    Grammar.fromAst ps = .error .noStart ↔ ∀ p ∈ ps, p.isStart = false := by
  unfold Grammar.fromAst
  cases hf : ps.find? (fun p => p.isStart) with
  | none => simpa using hf
  | some s =>
    simp only [reduceCtorEq, false_iff, not_forall]
    exact ⟨s, List.mem_of_find?_eq_some hf, by have := List.find?_some hf; simpa using this⟩

/-- C17.  `get_token_idx` and `get_token` are inverse. -/
theorem C17_token_index {ps : List Ast.Prod} (he : Expressible ps) {g : Grammar}
    (hg : Grammar.fromAst ps = .ok g) (s : Sym) (i : Nat) :
    g.getTokenIdx s = some i ↔ g.getToken i = some s :=
  (Grammar.gok_of_fromAst he hg).tokIdx

/-- Two rules `S → A "b"`, `A → "a" | "c"` plus an unused `B` without bodies. -/
def sampleAst : List Ast.Prod :=
  [⟨"A".toList, [⟨[.strLit "a".toList], "x".toList⟩, ⟨[.named (some "n".toList) (.strLit "c".toList)], "y".toList⟩],
      false, "T".toList⟩,
   ⟨"S".toList, [⟨[.nonTerm "A".toList, .strLit "b".toList], "z".toList⟩], true, "U".toList⟩,
   ⟨"B".toList, [], false, "V".toList⟩]

theorem sample_expressible : Expressible sampleAst := by
  intro p hp
  simp only [sampleAst, List.mem_cons, List.not_mem_nil, or_false] at hp
  rcases hp with rfl | rfl | rfl
  · refine ⟨by decide, ?_⟩
    intro b hb
    simp only [List.mem_cons, List.not_mem_nil, or_false] at hb
    rcases hb with rfl | rfl <;> refine ⟨by simp, ?_⟩ <;> intro s hs <;>
      simp only [List.mem_cons, List.not_mem_nil, or_false] at hs <;> subst hs <;>
      simp [Ast.InSym.lower]
  · refine ⟨by decide, ?_⟩
    intro b hb
    simp only [List.mem_cons, List.not_mem_nil, or_false] at hb
    subst hb
    refine ⟨by simp, ?_⟩
    intro s hs
    simp only [List.mem_cons, List.not_mem_nil, or_false] at hs
    rcases hs with rfl | rfl
    · simp [Ast.InSym.lower]
    · simp [Ast.InSym.lower]
  · exact ⟨by decide, by simp⟩

example : ∃ g, Grammar.fromAst sampleAst = .ok g ∧ g.prods.length = 4 ∧ g.tokens.length = 6 ∧
    g.productionIter "A".toList = .ok [1, 2] ∧
    g.productionIter "B".toList = .error .undefinedNonTerminal :=
  ⟨_, rfl, by decide, by decide, by rfl, by rfl⟩

/-! ## C18 -/

/-- C18.  Whenever `first` returns, the result is exactly the set of terminals
that can begin a string derived from the sequence. -/
theorem C18_first_exact {ps : List Ast.Prod} (he : Expressible ps) {g : Grammar}
    (hg : Grammar.fromAst ps = .ok g) (depth : Nat) (α : List Sym) (hα : α ≠ [])
    (heps : Sym.epsilon ∉ α) (set : List Sym) (hf : g.first depth α = .ok set) (t : Sym) :
    t ∈ set ↔ Starts (Rule g.prods) α t := by
  have hok := Grammar.gok_of_fromAst he hg
  cases α with
  | nil => exact absurd rfl hα
  | cons X rest =>
    have hX : X ≠ .epsilon := by rintro rfl; exact heps (by simp)
    obtain ⟨h1, h2⟩ := Grammar.first_spec hok depth X rest hX
    by_cases hokX : Grammar.OkAt g depth X
    · obtain ⟨set', k1, _, k3⟩ := h1 hokX
      rw [hf] at k1; cases k1
      rw [k3, starts_iff hok.not_nil]
    · rcases h2 hokX with k | ⟨k, _⟩ <;> rw [hf] at k <;> cases k

example : ∃ g, Grammar.fromAst sampleAst = .ok g ∧ Expressible sampleAst ∧
    g.first 4 [.nonTerm "S".toList, .eof] = .ok [.strLit "a".toList, .strLit "c".toList] :=
  ⟨_, rfl, sample_expressible, by rfl⟩

/-! ## C19 -/

/-- C19.  `first` returns for some stack depth exactly when every nonterminal
reachable through first symbols is defined and none of them is left recursive;
the depth used by the model of `Lalr::new` is then enough. -/
theorem C19_first_terminates_iff {ps : List Ast.Prod} (he : Expressible ps) {g : Grammar}
    (hg : Grammar.fromAst ps = .ok g) (A : Str) (rest : List Sym) :
    ((∃ depth set, g.first depth (.nonTerm A :: rest) = .ok set) ↔
      ∀ B, LeftReach (Rule g.prods) A B → (∃ rhs, Rule g.prods B rhs) ∧ ¬ LeftRec (Rule g.prods) B) ∧
    ((∃ depth set, g.first depth (.nonTerm A :: rest) = .ok set) →
      ∃ set, g.first (Lalr.depthOf g) (.nonTerm A :: rest) = .ok set) := by
  have hok := Grammar.gok_of_fromAst he hg
  have hdef : ∀ B, (∃ rhs, Rule g.prods B rhs) ↔ ∃ p ∈ g.prods, p.name = B := by
    intro B
    constructor
    · rintro ⟨rhs, p, hp, hn, _⟩; exact ⟨p, hp, hn⟩
    · rintro ⟨p, hp, hn⟩; exact ⟨p.inputs, p, hp, hn, rfl⟩
  have key : (∃ depth set, g.first depth (.nonTerm A :: rest) = .ok set) →
      ∀ B, LeftReach (Rule g.prods) A B → (∃ rhs, Rule g.prods B rhs) ∧ ¬ LeftRec (Rule g.prods) B := by
    rintro ⟨d, set, hf⟩
    have hokA : Grammar.OkAt g d (.nonTerm A) := by
      by_contra hno
      rcases (Grammar.first_spec hok d _ rest (by simp)).2 hno with k | ⟨k, _⟩ <;> rw [hf] at k <;> cases k
    intro B hB
    obtain ⟨d', _, hd'⟩ := Grammar.okAt_reach hokA hB
    refine ⟨?_, Grammar.okAt_not_rec d' hd'⟩
    rw [hdef]
    cases d' with
    | zero => exact hd'.elim
    | succ d' => exact (hd' B rfl).1
  have key2 : (∀ B, LeftReach (Rule g.prods) A B → (∃ rhs, Rule g.prods B rhs) ∧ ¬ LeftRec (Rule g.prods) B) →
      ∃ set, g.first (Lalr.depthOf g) (.nonTerm A :: rest) = .ok set := by
    intro hB
    have := Grammar.okAt_below A g.prods.length (Grammar.below_le A) fun B h => by
      rw [← hdef]; exact hB B h
    obtain ⟨set, h1, _⟩ := (Grammar.first_spec hok _ _ rest (by simp)).1 this
    exact ⟨set, h1⟩
  exact ⟨⟨key, fun h => ⟨_, key2 h⟩⟩, fun h => key2 (key h)⟩

/-- C19.  If everything reachable is defined but something is left recursive, the
call stack overflows whatever its size. -/
theorem C19_overflow {ps : List Ast.Prod} (he : Expressible ps) {g : Grammar}
    (hg : Grammar.fromAst ps = .ok g) (A : Str) (rest : List Sym)
    (hdef : ∀ B, LeftReach (Rule g.prods) A B → ∃ rhs, Rule g.prods B rhs)
    (hrec : ∃ B, LeftReach (Rule g.prods) A B ∧ LeftRec (Rule g.prods) B) (depth : Nat) :
    g.first depth (.nonTerm A :: rest) = .error .stackOverflow := by
  have hok := Grammar.gok_of_fromAst he hg
  have hno : ¬ Grammar.OkAt g depth (.nonTerm A) := by
    intro h
    obtain ⟨B, hB, hr⟩ := hrec
    obtain ⟨d', _, hd'⟩ := Grammar.okAt_reach h hB
    exact Grammar.okAt_not_rec d' hd' hr
  rcases (Grammar.first_spec hok depth _ rest (by simp)).2 hno with k | ⟨_, A', B, hA, hB, hund⟩
  · exact k
  · cases hA
    obtain ⟨rhs, p, hp, hn, _⟩ := hdef B hB
    exact absurd hn (hund p hp)

/-- `S → L "x"`, `L → L "a" | "a"`. -/
def leftAst : List Ast.Prod :=
  [⟨"S".toList, [⟨[.nonTerm "L".toList, .strLit "x".toList], []⟩], true, []⟩,
   ⟨"L".toList, [⟨[.nonTerm "L".toList, .strLit "a".toList], []⟩, ⟨[.strLit "a".toList], []⟩], false, []⟩]

example : ∃ g, Grammar.fromAst leftAst = .ok g ∧ LeftRec (Rule g.prods) "L".toList ∧
    g.first 9 [.nonTerm "S".toList] = .error .stackOverflow := by
  refine ⟨_, rfl, ⟨"L".toList, ⟨[.strLit "a".toList], ?_⟩, .refl⟩, by rfl⟩
  exact ⟨_, List.mem_cons_of_mem _ (List.mem_cons_of_mem _ List.mem_cons_self), rfl, rfl⟩

end Verif.Props
