import Verif.Spec.Cfg
import Verif.Proofs.Order

/-! What `grammar_from_ast_productions` produces. -/

namespace Verif
open Spec

namespace Grammar

/-- `l` lists the productions named `A`. -/
def Lists (prods : List Production) (A : Str) (l : List Nat) : Prop :=
  l.Pairwise (· < ·) ∧ ∀ i, i ∈ l ↔ ∃ p, prods[i]? = some p ∧ p.name = A

/-- The name map describes the productions. -/
def NameOk (m : List (Str × List Nat)) (prods : List Production) : Prop :=
  MSorted m ∧ ∀ A, (∀ l, mget A m = some l → l ≠ [] ∧ Lists prods A l) ∧
    (mget A m = none → ∀ p ∈ prods, p.name ≠ A)

theorem nameOk_add {m prods} (h : NameOk m prods) (p : Production) :
    NameOk (addName p.name prods.length m) (prods ++ [p]) := by
  obtain ⟨hs, hA⟩ := h
  have hget : ∀ i q, (prods ++ [p])[i]? = some q ↔ prods[i]? = some q ∨ (i = prods.length ∧ q = p) := by
    intro i q
    rw [List.getElem?_append]
    split
    · constructor
      · exact .inl
      · rintro (h | ⟨h, _⟩)
        · exact h
        · omega
    · rename_i hl
      have : prods[i]? = none := by simp; omega
      rw [this]
      by_cases he : i = prods.length
      · subst he; simp [eq_comm]
      · have : [p][i - prods.length]? = none := by simp; omega
        rw [this]; simp [he]
  have hmem : ∀ i q, prods[i]? = some q → i < prods.length := fun i q h => (List.getElem?_eq_some_iff.mp h).1
  unfold addName
  cases hm : mget p.name m with
  | none =>
    refine ⟨msorted_minsert hs, fun A => ?_⟩
    rw [mget_minsert]
    by_cases hAp : A = p.name
    · subst hAp
      simp only [if_true, reduceCtorEq, false_implies, and_true, Option.some.injEq]
      rintro l rfl
      refine ⟨by simp, by simp, fun i => ?_⟩
      have hno := (hA p.name).2 hm
      constructor
      · intro hi
        simp only [List.mem_singleton] at hi
        exact ⟨p, (hget i p).mpr (.inr ⟨hi, rfl⟩), rfl⟩
      · rintro ⟨q, hq, hn⟩
        rcases (hget i q).mp hq with h | ⟨h, _⟩
        · exact absurd hn (hno q (List.mem_of_getElem? h))
        · simp [h]
    · simp only [if_neg hAp]
      refine ⟨fun l hl => ?_, fun hn q hq => ?_⟩
      · obtain ⟨h1, h2, h3⟩ := (hA A).1 l hl
        refine ⟨h1, h2, fun i => (h3 i).trans ?_⟩
        constructor
        · rintro ⟨q, hq, hn⟩; exact ⟨q, (hget i q).mpr (.inl hq), hn⟩
        · rintro ⟨q, hq, hn⟩
          rcases (hget i q).mp hq with h | ⟨_, h⟩
          · exact ⟨q, h, hn⟩
          · subst h; exact absurd hn.symm hAp
      · rcases List.mem_append.mp hq with h | h
        · exact (hA A).2 hn q h
        · simp only [List.mem_singleton] at h; subst h; exact fun h => hAp h.symm
  | some l0 =>
    refine ⟨msorted_minsert hs, fun A => ?_⟩
    rw [mget_minsert]
    by_cases hAp : A = p.name
    · subst hAp
      simp only [if_true, reduceCtorEq, false_implies, and_true, Option.some.injEq]
      rintro l rfl
      obtain ⟨h1, h2, h3⟩ := (hA p.name).1 l0 hm
      refine ⟨by simp, ?_, fun i => ?_⟩
      · rw [List.pairwise_append]
        refine ⟨h2, by simp, fun a ha b hb => ?_⟩
        simp only [List.mem_singleton] at hb
        obtain ⟨q, hq, _⟩ := (h3 a).mp ha
        have := hmem a q hq
        omega
      · rw [List.mem_append, h3, List.mem_singleton]
        constructor
        · rintro (⟨q, hq, hn⟩ | h)
          · exact ⟨q, (hget i q).mpr (.inl hq), hn⟩
          · exact ⟨p, (hget i p).mpr (.inr ⟨h, rfl⟩), rfl⟩
        · rintro ⟨q, hq, hn⟩
          rcases (hget i q).mp hq with h | ⟨h, _⟩
          · exact .inl ⟨q, h, hn⟩
          · exact .inr h
    · simp only [if_neg hAp]
      refine ⟨fun l hl => ?_, fun hn q hq => ?_⟩
      · obtain ⟨h1, h2, h3⟩ := (hA A).1 l hl
        refine ⟨h1, h2, fun i => (h3 i).trans ?_⟩
        constructor
        · rintro ⟨q, hq, hn⟩; exact ⟨q, (hget i q).mpr (.inl hq), hn⟩
        · rintro ⟨q, hq, hn⟩
          rcases (hget i q).mp hq with h | ⟨_, h⟩
          · exact ⟨q, h, hn⟩
          · subst h; exact absurd hn.symm hAp
      · rcases List.mem_append.mp hq with h | h
        · exact (hA A).2 hn q h
        · simp only [List.mem_singleton] at h; subst h; exact fun h => hAp h.symm

theorem addBodies (p : Ast.Prod) : ∀ (bs : List Ast.Body) (m : List (Str × List Nat)) (prods : List Production),
    NameOk m prods → NameOk (bs.foldl (addBody p) (m, prods)).1 (bs.foldl (addBody p) (m, prods)).2 ∧
    (bs.foldl (addBody p) (m, prods)).2 = prods ++ bs.map (fromAstBody p)
  | [], m, prods, h => by simpa using h
  | b :: bs, m, prods, h => by
    have h1 := nameOk_add h (fromAstBody p b)
    obtain ⟨h2, h3⟩ := addBodies p bs _ _ h1
    exact ⟨h2, h3.trans (by simp)⟩

theorem addProds_spec : ∀ (ps : List Ast.Prod) (m : List (Str × List Nat)) (prods : List Production),
    NameOk m prods → NameOk (addProds (m, prods) ps).1 (addProds (m, prods) ps).2 ∧
    (addProds (m, prods) ps).2 = prods ++ ps.flatMap fun p => p.bodies.map (fromAstBody p)
  | [], m, prods, h => by simpa [addProds] using h
  | p :: ps, m, prods, h => by
    obtain ⟨h1, h2⟩ := addBodies p p.bodies m prods h
    obtain ⟨h3, h4⟩ := addProds_spec ps _ _ h1
    refine ⟨h3, ?_⟩
    refine h4.trans ?_
    rw [h2]
    simp

/-- What the constructions on grammars rely on. -/
structure GOk (g : Grammar) : Prop where
  start : ∃ S, g.prods[0]? = some ⟨g.augName, [.nonTerm S], none, none⟩
  names : NameOk g.nameMap g.prods
  tok0 : g.tokens[0]? = some .eof
  tokNodup : g.tokens.Nodup
  tokMem : ∀ s, s ∈ g.tokens ↔ s = .eof ∨ ∃ p ∈ g.prods, s ∈ p.inputs
  body : ∀ p ∈ g.prods, p.inputs ≠ []
  noEps : ∀ p ∈ g.prods, Sym.epsilon ∉ p.inputs
  noEof : ∀ p ∈ g.prods, Sym.eof ∉ p.inputs
  fresh : ∀ p ∈ g.prods, Sym.nonTerm g.augName ∉ p.inputs
  aug : ∀ i p, g.prods[i]? = some p → p.name = g.augName → i = 0

theorem fromAst_spec {ps : List Ast.Prod} {start : Ast.Prod} (hf : ps.find? (fun p => p.isStart) = some start) :
    ∃ g, fromAst ps = .ok g ∧ g.augName = start.name ++ ['\''] ∧ NameOk g.nameMap g.prods ∧
      g.prods = ⟨start.name ++ ['\''], [.nonTerm start.name], none, none⟩ ::
        ps.flatMap (fun p => p.bodies.map (fromAstBody p)) ∧
      g.tokens = .eof :: ofList (g.prods.flatMap Production.inputs) := by
  unfold fromAst
  rw [hf]
  have h0 : NameOk (minsert (start.name ++ ['\'']) [0] [])
      [(⟨start.name ++ ['\''], [.nonTerm start.name], none, none⟩ : Production)] := by
    have := nameOk_add (m := []) (prods := [])
      ⟨by simp [MSorted, Sorted], by simp [mget]⟩ ⟨start.name ++ ['\''], [.nonTerm start.name], none, none⟩
    simpa [addName, mget] using this
  obtain ⟨h1, h2⟩ := addProds_spec ps _ _ h0
  exact ⟨_, rfl, rfl, h1, h2, rfl⟩

theorem fromAst_ok {ps : List Ast.Prod} {g : Grammar} (h : fromAst ps = .ok g) :
    ∃ start, ps.find? (fun p => p.isStart) = some start := by
  unfold fromAst at h
  cases hf : ps.find? (fun p => p.isStart) with
  | none => rw [hf] at h; cases h
  | some s => exact ⟨s, rfl⟩

theorem gok_of_fromAst {ps : List Ast.Prod} (he : Expressible ps) {g : Grammar} (h : fromAst ps = .ok g) :
    GOk g := by
  obtain ⟨start, hf⟩ := fromAst_ok h
  obtain ⟨g', hg, haug, hn, hp, ht⟩ := fromAst_spec hf
  rw [h] at hg; cases hg
  have hmem : ∀ p, p ∈ g.prods ↔ p = ⟨start.name ++ ['\''], [.nonTerm start.name], none, none⟩ ∨
      ∃ q ∈ ps, ∃ b ∈ q.bodies, fromAstBody q b = p := by
    intro p; rw [hp]; simp
  have hstart := List.mem_of_find?_eq_some hf
  refine ⟨⟨start.name, by rw [hp, haug]; rfl⟩, hn, by rw [ht]; rfl, ?_, ?_, ?_, ?_, ?_, ?_, ?_⟩
  · rw [ht, List.nodup_cons]
    refine ⟨?_, (sorted_ofList _).nodup⟩
    rw [mem_ofList, List.mem_flatMap]
    rintro ⟨p, hpm, hs⟩
    rcases (hmem p).mp hpm with rfl | ⟨q, hq, b, hb, rfl⟩
    · simp at hs
    · simp only [fromAstBody, List.mem_map] at hs
      obtain ⟨s, hs, he'⟩ := hs
      exact ((he q hq).2 b hb).2 s hs |>.2.1 he'
  · intro s
    rw [ht, List.mem_cons, mem_ofList, List.mem_flatMap]
  · intro p hpm
    rcases (hmem p).mp hpm with rfl | ⟨q, hq, b, hb, rfl⟩
    · simp
    · simpa [fromAstBody] using ((he q hq).2 b hb).1
  · intro p hpm hs
    rcases (hmem p).mp hpm with rfl | ⟨q, hq, b, hb, rfl⟩
    · simp at hs
    · simp only [fromAstBody, List.mem_map] at hs
      obtain ⟨s, hs, he'⟩ := hs
      exact ((he q hq).2 b hb).2 s hs |>.1 he'
  · intro p hpm hs
    rcases (hmem p).mp hpm with rfl | ⟨q, hq, b, hb, rfl⟩
    · simp at hs
    · simp only [fromAstBody, List.mem_map] at hs
      obtain ⟨s, hs, he'⟩ := hs
      exact ((he q hq).2 b hb).2 s hs |>.2.1 he'
  · intro p hpm hs
    rw [haug] at hs
    rcases (hmem p).mp hpm with rfl | ⟨q, hq, b, hb, rfl⟩
    · simp only [List.mem_singleton, Sym.nonTerm.injEq] at hs
      exact absurd (congrArg List.length hs) (by simp)
    · simp only [fromAstBody, List.mem_map] at hs
      obtain ⟨s, hs, he'⟩ := hs
      exact (((he q hq).2 b hb).2 s hs).2.2 _ he' (by simp)
  · intro i p hi hname
    cases i with
    | zero => rfl
    | succ i =>
      rw [hp, List.getElem?_cons_succ] at hi
      have := List.mem_of_getElem? hi
      simp only [List.mem_flatMap, List.mem_map] at this
      obtain ⟨q, hq, b, hb, rfl⟩ := this
      rw [haug] at hname
      refine absurd ?_ (he q hq).1
      have : q.name = start.name ++ ['\''] := hname
      rw [this]; simp

namespace GOk
variable {g : Grammar}

theorem iter_ok (h : GOk g) {A : Str} {l : List Nat} (hl : g.productionIter A = .ok l) :
    l ≠ [] ∧ Lists g.prods A l := by
  unfold productionIter at hl
  cases hm : mget A g.nameMap with
  | none => simp [hm] at hl
  | some l' =>
    simp only [hm] at hl; cases hl
    exact (h.names.2 A).1 _ hm

theorem iter_iff (h : GOk g) {A : Str} :
    (∃ l, g.productionIter A = .ok l) ↔ ∃ p ∈ g.prods, p.name = A := by
  unfold productionIter
  cases hm : mget A g.nameMap with
  | none =>
    simp only [reduceCtorEq, exists_false, false_iff, not_exists, not_and]
    exact (h.names.2 A).2 hm
  | some l =>
    simp only [Except.ok.injEq, exists_eq', true_iff]
    obtain ⟨h1, _, h3⟩ := (h.names.2 A).1 l hm
    obtain ⟨i, hi⟩ := List.exists_mem_of_ne_nil l h1
    obtain ⟨p, hp, hn⟩ := (h3 i).mp hi
    exact ⟨p, List.mem_of_getElem? hp, hn⟩

theorem iter_err (h : GOk g) {A : Str} (hn : ∀ p ∈ g.prods, p.name ≠ A) :
    g.productionIter A = .error .undefinedNonTerminal := by
  cases hi : g.productionIter A with
  | ok l =>
    obtain ⟨p, hp, hpn⟩ := h.iter_iff.mp ⟨l, hi⟩
    exact absurd hpn (hn p hp)
  | error e =>
    unfold productionIter at hi
    cases hm : mget A g.nameMap <;> simp [hm] at hi
    rw [hi]

theorem tokIdx (h : GOk g) {s : Sym} {i : Nat} : g.getTokenIdx s = some i ↔ g.tokens[i]? = some s := by
  unfold getTokenIdx
  rw [List.findIdx?_eq_some_iff_getElem]
  constructor
  · rintro ⟨hi, h1, _⟩
    simp only [decide_eq_true_eq] at h1
    rw [List.getElem?_eq_getElem hi, h1]
  · intro hs
    obtain ⟨hi, h1⟩ := List.getElem?_eq_some_iff.mp hs
    refine ⟨hi, by simp [h1], ?_⟩
    intro j hj
    simp only [decide_eq_true_eq]
    intro he
    have := (List.getElem_inj h.tokNodup).mp (he.trans h1.symm)
    omega

theorem tokIdx_mem (h : GOk g) {s : Sym} (hs : s ∈ g.tokens) : ∃ i, g.getTokenIdx s = some i := by
  obtain ⟨i, hi, rfl⟩ := List.mem_iff_getElem.mp hs
  exact ⟨i, h.tokIdx.mpr (List.getElem?_eq_getElem hi)⟩

end GOk
end Grammar
end Verif
