import Verif.Proofs.BuildOk
import Verif.Props.Grammar

/-! # Properties of item sets (C20, C21, C22) -/

namespace Verif.Props
open Verif Spec

/-! ## C20 -/

/-- C20.  A closure is the least set of items with lookahead that contains the
given one and is closed under the LR(1) closure rule. -/
theorem C20_closure_least {ps : List Ast.Prod} (he : Expressible ps) {g : Grammar}
    (hg : Grammar.fromAst ps = .ok g) (depth : Nat) {s : ItemSet} (hs : WFSet s) {r : ItemSet}
    (hr : ItemSet.closure g depth s = .ok r) :
    WFSet r ∧ (∀ it la, Has s it la → Has r it la) ∧
    (∀ it la q b, Has r it la → Asks g it la q b → Has r (q, 0) b) ∧
    ∀ J : Item → Nat → Prop, (∀ it la, Has s it la → J it la) →
      (∀ it la q b, J it la → Asks g it la q b → J (q, 0) b) → ∀ it la, Has r it la → J it la := by
  obtain ⟨h1, h2⟩ := (ItemSet.closure_spec (Grammar.gok_of_fromAst he hg) depth hs).1 r hr
  refine ⟨h1, fun it la h => (h2 it la).mpr (.base h), ?_, ?_⟩
  · intro it la q b h ha
    exact (h2 _ _).mpr (.step ((h2 _ _).mp h) ha)
  · intro J hb hc it la h
    have := (h2 it la).mp h
    clear h
    induction this with
    | base h => exact hb _ _ h
    | step _ ha ih => exact hc _ _ _ _ ih ha

/-- Every nonterminal used has a production, and FIRST terminates on every
nonterminal that follows another one in a body. -/
def FirstTerminates (g : Grammar) : Prop :=
  (∀ p ∈ g.prods, ∀ A, Sym.nonTerm A ∈ p.inputs → ∃ rhs, Rule g.prods A rhs) ∧
  ∀ p ∈ g.prods, ∀ i A B, p.inputs[i]? = some (.nonTerm A) → p.inputs[i + 1]? = some (.nonTerm B) →
    ∃ depth set, g.first depth [.nonTerm B] = .ok set

theorem fine_of {ps : List Ast.Prod} (he : Expressible ps) {g : Grammar}
    (hg : Grammar.fromAst ps = .ok g) (hf : FirstTerminates g) : ItemSet.Fine g := by
  refine ⟨fun p hp A hA => ?_, fun p hp i A B h1 h2 => ?_⟩
  · obtain ⟨rhs, q, hq, hn, _⟩ := hf.1 p hp A hA
    exact ⟨q, hq, hn⟩
  · obtain ⟨set, hset⟩ := (C19_first_terminates_iff he hg B []).2 (hf.2 p hp i A B h1 h2)
    by_contra hno
    rcases (Grammar.first_spec (Grammar.gok_of_fromAst he hg) _ _ [] (by simp)).2 hno with k | ⟨k, _⟩ <;>
      rw [hset] at k <;> cases k

/-- C20.  The loop of `closure` always ends: it returns, or a panic of FIRST or of
a token lookup comes first.  It returns whenever FIRST terminates and the
lookaheads are terminals of the grammar. -/
theorem C20_closure_terminates {ps : List Ast.Prod} (he : Expressible ps) {g : Grammar}
    (hg : Grammar.fromAst ps = .ok g) {s : ItemSet} (hs : WFSet s) :
    (∀ depth e, ItemSet.closure g depth s = .error e →
      e = .undefinedToken ∨ e = .stackOverflow ∨ e = .undefinedNonTerminal) ∧
    (FirstTerminates g → (∀ it la, Has s it la → ∃ t, g.tokens[la]? = some t ∧ ∀ A, t ≠ .nonTerm A) →
      ∃ r, ItemSet.closure g (Lalr.depthOf g) s = .ok r) := by
  have hok := Grammar.gok_of_fromAst he hg
  refine ⟨fun depth e h => ?_, fun hf hla => ?_⟩
  · rcases (ItemSet.closure_spec hok depth hs).2.1 e h with ⟨h1, _⟩ | h1
    · exact .inl h1
    · exact .inr h1
  · refine (ItemSet.closure_spec hok _ hs).2.2 fun it la hc => ?_
    exact ItemSet.ready_of hok (fine_of he hg hf) (ItemSet.clo_termLa hla hc)

/-- `S → C C`, `C → "c" C | "d"`: ten LR(1) states, seven LALR(1) states. -/
def ccAst : List Ast.Prod :=
  [⟨"S".toList, [⟨[.nonTerm "C".toList, .nonTerm "C".toList], "s".toList⟩], true, "T".toList⟩,
   ⟨"C".toList, [⟨[.strLit "c".toList, .named (some "n".toList) (.nonTerm "C".toList)], "m".toList⟩,
      ⟨[.strLit "d".toList], "k".toList⟩], false, "T".toList⟩]

theorem cc_expressible : Expressible ccAst := by
  intro p hp
  simp only [ccAst, List.mem_cons, List.not_mem_nil, or_false] at hp
  rcases hp with rfl | rfl <;> refine ⟨by decide, ?_⟩ <;> intro b hb <;>
    simp only [List.mem_cons, List.not_mem_nil, or_false] at hb
  · subst hb
    refine ⟨by simp, ?_⟩
    intro s hs
    simp only [List.mem_cons, List.not_mem_nil, or_false] at hs
    rcases hs with rfl | rfl <;> simp [Ast.InSym.lower]
  · rcases hb with rfl | rfl <;> refine ⟨by simp, ?_⟩ <;> intro s hs <;>
      simp only [List.mem_cons, List.not_mem_nil, or_false] at hs
    · rcases hs with rfl | rfl <;> simp [Ast.InSym.lower]
    · subst hs; simp [Ast.InSym.lower]

/-- The lowered grammar of `ccAst`. -/
def ccG : Grammar := (Grammar.fromAst ccAst).toOption.getD ⟨[], [], [], []⟩

theorem cc_fromAst : Grammar.fromAst ccAst = .ok ccG := rfl

theorem cc_first : FirstTerminates ccG := by
  have hp : ccG.prods = [⟨"S'".toList, [.nonTerm "S".toList], none, none⟩,
      ⟨"S".toList, [.nonTerm "C".toList, .nonTerm "C".toList], some "s".toList, some "T".toList⟩,
      ⟨"C".toList, [.strLit "c".toList, .nonTerm "C".toList], some "m".toList, some "T".toList⟩,
      ⟨"C".toList, [.strLit "d".toList], some "k".toList, some "T".toList⟩] := by decide
  have hC : ∃ depth set, ccG.first depth [.nonTerm "C".toList] = .ok set := ⟨4, _, rfl⟩
  constructor
  · intro p hpm A hA
    rw [hp] at hpm
    simp only [List.mem_cons, List.not_mem_nil, or_false] at hpm
    have : A = "S".toList ∨ A = "C".toList := by
      rcases hpm with rfl | rfl | rfl | rfl <;> simp at hA <;> simp [hA]
    rcases this with rfl | rfl
    · exact ⟨_, _, by rw [hp]; exact List.mem_cons_of_mem _ List.mem_cons_self, rfl, rfl⟩
    · exact ⟨_, _, by rw [hp]; exact List.mem_cons_of_mem _ (List.mem_cons_of_mem _ List.mem_cons_self), rfl, rfl⟩
  · intro p hpm i A B h1 h2
    rw [hp] at hpm
    simp only [List.mem_cons, List.not_mem_nil, or_false] at hpm
    have : B = "C".toList := by
      rcases hpm with rfl | rfl | rfl | rfl <;> simp at h2
      all_goals
        rcases i with _ | i
        · simp_all
        · simp_all
    subst this
    exact hC

example : WFSet ItemSet.initial ∧
    ∃ r, ItemSet.closure ccG (Lalr.depthOf ccG) ItemSet.initial = .ok r ∧
      r = [((0, 0), [0]), ((1, 0), [0]), ((2, 0), [1, 2]), ((3, 0), [1, 2])] := by
  exact ⟨ItemSet.wf_initial, _, rfl, by decide +kernel⟩

/-! ## C21 -/

/-- C21.  GOTO is the closure of the items with `X` after the dot, dot advanced,
lookaheads unchanged. -/
theorem C21_goto_exact {ps : List Ast.Prod} (he : Expressible ps) {g : Grammar}
    (hg : Grammar.fromAst ps = .ok g) (depth : Nat) {s : ItemSet} (hs : WFSet s) (X : Sym) {r : ItemSet}
    (hr : ItemSet.goto g depth s X = .ok r) :
    WFSet r ∧ ∀ it la, Has r it la ↔ Clo g (Advanced g (Has s) X) it la :=
  (ItemSet.goto_spec (Grammar.gok_of_fromAst he hg) depth hs X).1 r hr

example : ∃ s r, ItemSet.closure ccG 6 ItemSet.initial = .ok s ∧ WFSet s ∧
    ItemSet.goto ccG 6 s (.strLit "c".toList) = .ok r ∧
    r = [((2, 0), [1, 2]), ((2, 1), [1, 2]), ((3, 0), [1, 2])] := by
  refine ⟨_, _, rfl, ?_, rfl, by decide +kernel⟩
  exact ((ItemSet.closure_spec (Grammar.gok_of_fromAst cc_expressible cc_fromAst) 6 ItemSet.wf_initial).1 _ rfl).1

/-! ## C22 -/

/-- C22.  The collection has no duplicates, starts with the closure of the initial
item, and its members are exactly the reachable sets. -/
theorem C22_items_exact {ps : List Ast.Prod} (he : Expressible ps) {g : Grammar}
    (hg : Grammar.fromAst ps = .ok g) (depth : Nat) {c : List ItemSet}
    (hc : ItemSet.items g depth = .ok c) :
    c.Nodup ∧ (∀ s ∈ c, WFSet s ∧ s ≠ []) ∧
    (∃ i0, c[0]? = some i0 ∧ ∀ it la, Has i0 it la ↔ Clo g (fun it la => it = (0, 0) ∧ la = 0) it la) ∧
    (∀ s ∈ c, Reach g (Has s)) ∧
    ∀ I, Reach g I → ∃ s ∈ c, ∀ it la, Has s it la ↔ I it la := by
  have hok := Grammar.gok_of_fromAst he hg
  obtain ⟨i0, h0, hr⟩ := (ItemSet.items_spec hok depth).1 c hc
  refine ⟨hr.inv.nodup, fun s hs => ⟨hr.inv.wf s hs, hr.inv.ne s hs⟩, ⟨i0, ?_, ?_⟩, hr.inv.reach, ?_⟩
  · obtain ⟨t, ht⟩ := hr.pre
    rw [← ht]; rfl
  · intro it la
    rw [← ItemSet.has_initial]
    exact ((ItemSet.closure_spec hok depth ItemSet.wf_initial).1 i0 h0).2 it la
  · intro I hI
    obtain ⟨s, hs, rfl⟩ := hr.complete hok h0 hI
    exact ⟨s, hs, fun _ _ => Iff.rfl⟩

/-- C22.  Construction of the collection always ends: it can only be cut short by FIRST or by a
nonterminal without a rule, and succeeds exactly if every nonterminal that can be reached has a rule
and FIRST meets no left recursion. -/
theorem C22_items_terminates {ps : List Ast.Prod} (he : Expressible ps) {start : Ast.Prod}
    (hs : ps.find? (fun p => p.isStart) = some start) {g : Grammar} (hg : Grammar.fromAst ps = .ok g) :
    (∀ depth e, ItemSet.items g depth = .error e → e = .stackOverflow ∨ e = .undefinedNonTerminal) ∧
    ((∃ c, ItemSet.items g (Lalr.depthOf g) = .ok c) ↔ Buildable (AstRule ps) start.name) := by
  have hok := Grammar.gok_of_fromAst he hg
  exact ⟨fun depth e h => ItemSet.items_error hok h,
    (ItemSet.items_ok_iff hok).trans (Grammar.buildable_iff he hs hg)⟩

theorem buildable_of_first {ps : List Ast.Prod} (he : Expressible ps) {start : Ast.Prod}
    (hs : ps.find? (fun p => p.isStart) = some start) {g : Grammar} (hg : Grammar.fromAst ps = .ok g)
    (hf : FirstTerminates g) : Buildable (AstRule ps) start.name := by
  have hok := Grammar.gok_of_fromAst he hg
  rw [← (C22_items_terminates he hs hg).2]
  refine (ItemSet.items_spec hok _).2.2 fun I hI it la h => ?_
  exact ItemSet.ready_of hok (fine_of he hg hf) (ItemSet.reach_termLa hok hI it la h)

theorem cc_buildable : Buildable (AstRule ccAst) "S".toList := buildable_of_first cc_expressible rfl cc_fromAst cc_first

example : ∃ c, ItemSet.items ccG (Lalr.depthOf ccG) = .ok c :=
  (C22_items_terminates cc_expressible rfl cc_fromAst).2.mpr cc_buildable

example : ((ItemSet.items ccG (Lalr.depthOf ccG)).toOption.map List.length) = some 10 := by decide +kernel

end Verif.Props
