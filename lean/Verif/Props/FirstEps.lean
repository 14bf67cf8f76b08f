import Verif.Props.Grammar
import Verif.Proofs.FirstEps
import Verif.Proofs.FirstDepth

/-! # Property C55: FIRST in the presence of ε

`InputSymbol::Epsilon` cannot be written in the grammar language, but `first` handles it. -/

namespace Verif.Props
open Verif Spec

/-- C55, one direction, for every grammar without empty bodies: the set contains every
terminal that can begin a string derived from the sequence, and ε if the sequence derives
the empty string.  Missing: the other direction, which is false (`C55_false`). -/
theorem C55_covers_partial {ps : List Ast.Prod} (hb : ∀ p ∈ ps, ∀ b ∈ p.bodies, b.inputs ≠ []) {g : Grammar}
    (hg : Grammar.fromAst ps = .ok g) (depth : Nat) (α set : List Sym) (hf : g.first depth α = .ok set) :
    (∀ t, t ≠ .epsilon → Starts (Erased (Rule g.prods)) (erase α) t → t ∈ set) ∧
    (Nullable (Rule g.prods) α → Sym.epsilon ∈ set) := by
  unfold Grammar.first at hf
  simp only [bind, Except.bind, pure, Except.pure] at hf
  cases hr : Grammar.firstLoop g depth α [] true with
  | error e => simp [hr] at hf
  | ok p =>
    obtain ⟨set', b⟩ := p
    simp only [hr, Except.ok.injEq] at hf
    obtain ⟨_, _, k3, k4, _⟩ := Grammar.firstLoop_added (C := False) (Grammar.rulesOf hb hg) (fun h => h.elim) depth
      α [] set' b (by simp) hr
    refine ⟨?_, ?_⟩
    · intro t ht hs
      have := k3 t ((starts_iff_sfst ht).mp hs)
      subst hf
      split
      · exact mem_oinsert.mpr (.inr this)
      · exact this
    · intro hN
      rw [k4 (nullable_iff.mp hN)] at hf
      subst hf
      exact mem_oinsert.mpr (.inl rfl)

/-- C55, for grammars without empty bodies in which a body that begins with a nullable symbol is
nullable as a whole: the set is exactly FIRST.  Missing: other grammars, for which it is
false (`C55_false`). -/
theorem C55_exact_partial {ps : List Ast.Prod} (hb : ∀ p ∈ ps, ∀ b ∈ p.bodies, b.inputs ≠ []) {g : Grammar}
    (hg : Grammar.fromAst ps = .ok g)
    (hn : ∀ A X rhs, Rule g.prods A (X :: rhs) → Nullable (Rule g.prods) [X] → Nullable (Rule g.prods) rhs)
    (depth : Nat) (α set : List Sym) (hf : g.first depth α = .ok set) :
    (∀ t, t ≠ .epsilon → (t ∈ set ↔ Starts (Erased (Rule g.prods)) (erase α) t)) ∧
    (Sym.epsilon ∈ set ↔ Nullable (Rule g.prods) α) := by
  unfold Grammar.first at hf
  simp only [bind, Except.bind, pure, Except.pure] at hf
  cases hr : Grammar.firstLoop g depth α [] true with
  | error e => simp [hr] at hf
  | ok p =>
    obtain ⟨set', b⟩ := p
    simp only [hr, Except.ok.injEq] at hf
    obtain ⟨k1, _, k3, k4, k5⟩ := Grammar.firstLoop_added (C := True) (Grammar.rulesOf hb hg)
      (fun _ A X r h1 h2 => nullable_iff.mp (hn A X r h1 (nullable_iff.mpr (by simpa using h2)))) depth
      α [] set' b (by simp) hr
    obtain ⟨k6, k7⟩ := k5 trivial
    have hm : ∀ t, t ∈ set ↔ (b = true ∧ t = .epsilon) ∨ t ∈ set' := by
      intro t
      subst hf
      cases b <;> simp [mem_oinsert]
    refine ⟨?_, ?_⟩
    · intro t ht
      rw [hm, starts_iff_sfst ht]
      constructor
      · rintro (⟨_, h⟩ | h)
        · exact absurd h ht
        · exact (k6 t h).resolve_left (by simp)
      · exact fun h => .inr (k3 t h)
    · rw [hm, nullable_iff]
      constructor
      · rintro (⟨h, _⟩ | h)
        · exact k7 h
        · exact absurd h k1
      · exact fun h => .inl ⟨k4 h, rfl⟩

/-- C55, what the code does for every grammar and every sequence on which it returns: the set is exactly FIRST of
the sequence in the grammar in which each body may also be cut off after its first symbol and empty bodies are
left out. -/
theorem C55_exact {ps : List Ast.Prod} {g : Grammar} (hg : Grammar.fromAst ps = .ok g)
    (depth : Nat) (α set : List Sym) (hf : g.first depth α = .ok set) :
    (∀ t, t ≠ .epsilon → (t ∈ set ↔ Starts (Erased (Headed (Rule g.prods))) (erase α) t)) ∧
    (Sym.epsilon ∈ set ↔ Nullable (Headed (Rule g.prods)) α) := by
  unfold Grammar.first at hf
  simp only [bind, Except.bind, pure, Except.pure] at hf
  cases hr : Grammar.firstLoop g depth α [] true with
  | error e => simp [hr] at hf
  | ok p =>
    obtain ⟨set', b⟩ := p
    simp only [hr, Except.ok.injEq] at hf
    obtain ⟨k1, k2⟩ := Grammar.firstLoop_adds hg depth α [] set' b (by simp) hr
    have hm : ∀ t, t ∈ set ↔ (b = true ∧ t = .epsilon) ∨ t ∈ set' := by
      intro t
      subst hf
      cases b <;> simp [mem_oinsert]
    refine ⟨fun t ht => ?_, ?_⟩
    · rw [hm, starts_iff_sfst ht, k1]
      simp [ht]
    · rw [hm, nullable_iff, ← k2, k1]
      constructor
      · rintro (⟨h, _⟩ | h | ⟨l, X, r, _, _, h⟩)
        · exact h
        · cases h
        · exact absurd rfl h.ne.1
      · exact fun h => .inl ⟨h, rfl⟩

/-- C55, when the code returns, for every grammar and every sequence: exactly if every nonterminal that is looked
at is defined and none leads back to itself, where symbols are skipped that derive the empty string in the grammar
of `C55_exact`.  The depth used by the model of `Lalr::new` is then enough, and otherwise the call stack
overflows or an undefined nonterminal is looked at. -/
theorem C55_returns {ps : List Ast.Prod} {g : Grammar} (hg : Grammar.fromAst ps = .ok g) (α : List Sym) :
    ((∃ depth set, g.first depth α = .ok set) ↔
      ∀ l A r B, α = l ++ .nonTerm A :: r → Nullable (Headed (Rule g.prods)) l →
        LeftReach (Skipped (Headed (Rule g.prods)) (Rule g.prods)) A B →
        (∃ rhs, Rule g.prods B rhs) ∧ ¬ LeftRec (Skipped (Headed (Rule g.prods)) (Rule g.prods)) B) ∧
    ((∃ depth set, g.first depth α = .ok set) → ∃ set, g.first (Lalr.depthOf g) α = .ok set) ∧
    ∀ depth e, g.first depth α = .error e → e = .stackOverflow ∨ (e = .undefinedNonTerminal ∧
      ∃ l A r B, α = l ++ .nonTerm A :: r ∧ Nullable (Headed (Rule g.prods)) l ∧
        LeftReach (Skipped (Headed (Rule g.prods)) (Rule g.prods)) A B ∧ ¬ ∃ rhs, Rule g.prods B rhs) := by
  have hdef : ∀ B, (∃ rhs, Rule g.prods B rhs) ↔ ∃ p ∈ g.prods, p.name = B := by
    intro B
    constructor
    · rintro ⟨rhs, p, hp, hn, _⟩; exact ⟨p, hp, hn⟩
    · rintro ⟨p, hp, hn⟩; exact ⟨p.inputs, p, hp, hn, rfl⟩
  have hfl : ∀ depth, (∃ set, g.first depth α = .ok set) ↔ ∃ r, Grammar.firstLoop g depth α [] true = .ok r := by
    intro depth
    unfold Grammar.first
    cases Grammar.firstLoop g depth α [] true <;> simp [bind, Except.bind, pure, Except.pure]
  have h1 : ∀ depth, (∃ set, g.first depth α = .ok set) →
      ∀ l A r B, α = l ++ .nonTerm A :: r → Nullable (Headed (Rule g.prods)) l →
        LeftReach (Skipped (Headed (Rule g.prods)) (Rule g.prods)) A B →
        (∃ rhs, Rule g.prods B rhs) ∧ ¬ LeftRec (Skipped (Headed (Rule g.prods)) (Rule g.prods)) B := by
    intro depth h l A r B hα hl hB
    have := (Grammar.firstLoop_fits hg depth α [] (by simp)).1.mp ((hfl depth).mp h) l _ r hα (nullable_iff.mp hl)
    obtain ⟨d', _, h2⟩ := Grammar.fits_reach this hB
    refine ⟨(hdef B).mpr ?_, Grammar.fits_not_rec d' h2⟩
    cases d' with
    | zero => exact h2.elim
    | succ d' => exact (h2 B rfl).1
  have h2 : (∀ l A r B, α = l ++ .nonTerm A :: r → Nullable (Headed (Rule g.prods)) l →
        LeftReach (Skipped (Headed (Rule g.prods)) (Rule g.prods)) A B →
        (∃ rhs, Rule g.prods B rhs) ∧ ¬ LeftRec (Skipped (Headed (Rule g.prods)) (Rule g.prods)) B) →
      ∃ set, g.first (Lalr.depthOf g) α = .ok set := by
    intro h
    rw [hfl]
    refine (Grammar.firstLoop_fits hg _ α [] (by simp)).1.mpr fun l X r hα hl => ?_
    cases hX : X.asNonTerminal with
    | none => exact fun B hB => absurd hB (Grammar.asNonTerminal_none hX B)
    | some A =>
      have := Grammar.asNonTerminal_some hX
      subst this
      refine Grammar.fits_under A _ (Grammar.under_le A) fun B hB => ?_
      rw [← hdef]
      exact h l A r B hα (nullable_iff.mpr hl) hB
  refine ⟨⟨fun ⟨d, h⟩ => h1 d h, fun h => ⟨_, h2 h⟩⟩, fun ⟨d, h⟩ => h2 (h1 d h), fun depth e he => ?_⟩
  have : Grammar.firstLoop g depth α [] true = .error e := by
    unfold Grammar.first at he
    cases hr : Grammar.firstLoop g depth α [] true with
    | error e' => rw [hr] at he; cases he; rfl
    | ok p => rw [hr] at he; cases he
  obtain ⟨l, X, r, hα, hl, hf⟩ := (Grammar.firstLoop_fits hg depth α [] (by simp)).2 e this
  rcases hf with hf | ⟨hf, A, B, rfl, hB, hn⟩
  · exact .inl hf
  · refine .inr ⟨hf, l, A, r, B, hα, nullable_iff.mpr hl, hB, ?_⟩
    rw [hdef]
    rintro ⟨p, hp, hpn⟩
    exact hn p hp hpn

/-- `S → "a" N M`, `N → ε | "n"`, `M → N N | "m"`. -/
def optAst : List Ast.Prod :=
  [⟨"S".toList, [⟨[.strLit "a".toList, .nonTerm "N".toList, .nonTerm "M".toList], []⟩], true, []⟩,
   ⟨"N".toList, [⟨[.epsilon], []⟩, ⟨[.strLit "n".toList], []⟩], false, []⟩,
   ⟨"M".toList, [⟨[.nonTerm "N".toList, .nonTerm "N".toList], []⟩, ⟨[.strLit "m".toList], []⟩], false, []⟩]

/-- `S → A "d"`, `A → N "c"`, `N → ε | "n"`. -/
def epsAst : List Ast.Prod :=
  [⟨"S".toList, [⟨[.nonTerm "A".toList, .strLit "d".toList], []⟩], true, []⟩,
   ⟨"A".toList, [⟨[.nonTerm "N".toList, .strLit "c".toList], []⟩], false, []⟩,
   ⟨"N".toList, [⟨[.epsilon], []⟩, ⟨[.strLit "n".toList], []⟩], false, []⟩]

/-- The grammar of an AST. -/
def firstG (ps : List Ast.Prod) : Grammar := (Grammar.fromAst ps).toOption.getD ⟨[], [], [], []⟩

theorem eps_prods : (firstG epsAst).prods =
    [⟨"S'".toList, [.nonTerm "S".toList], none, none⟩, ⟨"S".toList, [.nonTerm "A".toList, .strLit "d".toList], some [], some []⟩,
     ⟨"A".toList, [.nonTerm "N".toList, .strLit "c".toList], some [], some []⟩,
     ⟨"N".toList, [.epsilon], some [], some []⟩, ⟨"N".toList, [.strLit "n".toList], some [], some []⟩] := by decide +kernel

theorem opt_prods : (firstG optAst).prods =
    [⟨"S'".toList, [.nonTerm "S".toList], none, none⟩,
     ⟨"S".toList, [.strLit "a".toList, .nonTerm "N".toList, .nonTerm "M".toList], some [], some []⟩,
     ⟨"N".toList, [.epsilon], some [], some []⟩, ⟨"N".toList, [.strLit "n".toList], some [], some []⟩,
     ⟨"M".toList, [.nonTerm "N".toList, .nonTerm "N".toList], some [], some []⟩,
     ⟨"M".toList, [.strLit "m".toList], some [], some []⟩] := by decide +kernel

-- C55: hypotheses of both theorems; `N` and `M` are nullable, and what follows them is looked at.
example : (∀ p ∈ optAst, ∀ b ∈ p.bodies, b.inputs ≠ []) ∧ Grammar.fromAst optAst = .ok (firstG optAst) ∧
    (∀ A X rhs, Rule (firstG optAst).prods A (X :: rhs) → Nullable (Rule (firstG optAst).prods) [X] →
      Nullable (Rule (firstG optAst).prods) rhs) ∧
    (firstG optAst).first 5 [.nonTerm "M".toList, .nonTerm "N".toList, .strLit "z".toList] =
      .ok [.strLit "m".toList, .strLit "n".toList, .strLit "z".toList] ∧
    (firstG optAst).first 5 [.nonTerm "M".toList] = .ok [.strLit "m".toList, .strLit "n".toList, .epsilon] := by
  refine ⟨by decide +kernel, rfl, ?_, rfl, rfl⟩
  have hN : Nul (Rule (firstG optAst).prods) (.nonTerm "N".toList) := by
    refine .nt (rhs := [.epsilon]) ⟨_, by rw [opt_prods]; exact .tail _ (.tail _ (.head _)), rfl, rfl⟩ ?_
    intro X hX
    simp only [List.mem_cons, List.not_mem_nil, or_false] at hX
    subst hX
    exact .eps
  rintro A X rhs ⟨p, hp, hA, he⟩ hX
  rw [nullable_iff] at hX ⊢
  have hX := hX X (by simp)
  rw [opt_prods] at hp
  simp only [List.mem_cons, List.not_mem_nil, or_false] at hp
  rcases hp with rfl | rfl | rfl | rfl | rfl | rfl <;> simp only [List.cons.injEq] at he <;> obtain ⟨rfl, rfl⟩ := he
  · simp
  · cases hX
  · simp
  · simp
  · intro Y hY
    simp only [List.mem_cons, List.not_mem_nil, or_false] at hY
    subst hY
    exact hN
  · simp

/-- C55 is false in general: `first_of_symbol` reports ε as soon as the first symbol of a
body is nullable, so `d` is put into the FIRST set of `S`, no string of which begins with
`d`, and ε into that of `A`, which does not derive the empty string. -/
theorem C55_false : ∃ ps g set, (∀ p ∈ ps, ∀ b ∈ p.bodies, b.inputs ≠ []) ∧ Grammar.fromAst ps = .ok g ∧
    g.first 5 [.nonTerm "A".toList, .strLit "d".toList] = .ok set ∧ Sym.strLit "d".toList ∈ set ∧
    ¬ Starts (Erased (Rule g.prods)) (erase [.nonTerm "A".toList, .strLit "d".toList]) (.strLit "d".toList) ∧
    (∃ set, g.first 5 [.nonTerm "A".toList] = .ok set ∧ Sym.epsilon ∈ set) ∧
    ¬ Nullable (Rule g.prods) [.nonTerm "A".toList] := by
  have hA : ∀ rhs, Rule (firstG epsAst).prods "A".toList rhs → rhs = [.nonTerm "N".toList, .strLit "c".toList] := by
    rintro rhs ⟨p, hp, hA, rfl⟩
    rw [eps_prods] at hp
    simp only [List.mem_cons, List.not_mem_nil, or_false] at hp
    rcases hp with rfl | rfl | rfl | rfl | rfl <;> first | rfl | (revert hA; decide)
  have hN : ∀ rhs, Rule (firstG epsAst).prods "N".toList rhs → rhs = [.epsilon] ∨ rhs = [.strLit "n".toList] := by
    rintro rhs ⟨p, hp, hA, rfl⟩
    rw [eps_prods] at hp
    simp only [List.mem_cons, List.not_mem_nil, or_false] at hp
    rcases hp with rfl | rfl | rfl | rfl | rfl <;> first | exact .inl rfl | exact .inr rfl | (revert hA; decide)
  have nA : ¬ Nul (Rule (firstG epsAst).prods) (.nonTerm "A".toList) := by
    intro h
    cases h with
    | nt h1 h2 =>
      rw [hA _ h1] at h2
      cases h2 (.strLit "c".toList) (by simp)
  have fl : ∀ {s t}, Fst (Rule (firstG epsAst).prods) (.strLit s) t → t = .strLit s := by
    intro s t h
    cases h
    rfl
  have fN : ∀ t, Fst (Rule (firstG epsAst).prods) (.nonTerm "N".toList) t → t = .strLit "n".toList := by
    intro t h
    cases h with
    | term _ h => exact absurd rfl (h _)
    | @nt _ l X r _ h1 h2 h3 =>
      rcases hN _ h1 with h | h
      · rcases List.append_eq_singleton_iff.mp h with ⟨_, h⟩ | ⟨_, h⟩
        · simp only [List.cons.injEq] at h
          rw [h.1] at h3
          exact absurd h3 not_fst_eps
        · simp at h
      · rcases List.append_eq_singleton_iff.mp h with ⟨_, h⟩ | ⟨_, h⟩
        · simp only [List.cons.injEq] at h
          rw [h.1] at h3
          exact fl h3
        · simp at h
  refine ⟨epsAst, firstG epsAst, _, by decide +kernel, rfl, rfl, by decide +kernel, ?_, ⟨_, rfl, by decide +kernel⟩, ?_⟩
  · rw [starts_iff_sfst (by simp), sfst_cons]
    rintro (h | ⟨h, _⟩)
    · cases h with
      | @nt _ l X r _ h1 h2 h3 =>
        have h4 : SFst (Rule (firstG epsAst).prods) [.nonTerm "N".toList, .strLit "c".toList] (.strLit "d".toList) :=
          ⟨l, X, r, (hA _ h1).symm, h2, h3⟩
        rw [sfst_cons, sfst_cons] at h4
        rcases h4 with h | ⟨_, h | ⟨_, h⟩⟩
        · have := fN _ h
          revert this; decide
        · have := fl h
          revert this; decide
        · exact not_sfst_nil h
    · exact nA h
  · rw [nullable_iff]
    exact fun h => nA (h _ (by simp))

-- C55_exact: the grammar of `C55_false`, where the set is not FIRST of the grammar itself; ε is in the set of `A`.
example : Grammar.fromAst epsAst = .ok (firstG epsAst) ∧
    (firstG epsAst).first 5 [.nonTerm "A".toList] = .ok [.strLit "c".toList, .strLit "n".toList, .epsilon] ∧
    Nullable (Headed (Rule (firstG epsAst).prods)) [.nonTerm "A".toList] := by
  have h : (firstG epsAst).first 5 [.nonTerm "A".toList] = .ok [.strLit "c".toList, .strLit "n".toList, .epsilon] := rfl
  exact ⟨rfl, h, (C55_exact (ps := epsAst) rfl 5 _ _ h).2.mp (by decide)⟩

/-- `S → N S "x" | "a"`, `N → ε | "n"`. -/
def hiddenEpsAst : List Ast.Prod :=
  [⟨"S".toList, [⟨[.nonTerm "N".toList, .nonTerm "S".toList, .strLit "x".toList], []⟩, ⟨[.strLit "a".toList], []⟩], true, []⟩,
   ⟨"N".toList, [⟨[.epsilon], []⟩, ⟨[.strLit "n".toList], []⟩], false, []⟩]

theorem hiddenEps_prods : (firstG hiddenEpsAst).prods =
    [⟨"S'".toList, [.nonTerm "S".toList], none, none⟩,
     ⟨"S".toList, [.nonTerm "N".toList, .nonTerm "S".toList, .strLit "x".toList], some [], some []⟩,
     ⟨"S".toList, [.strLit "a".toList], some [], some []⟩,
     ⟨"N".toList, [.epsilon], some [], some []⟩, ⟨"N".toList, [.strLit "n".toList], some [], some []⟩] := by decide +kernel

-- C55_returns, both cases: it returns on `N "b"`, and not on `S`, which comes back to itself behind `N`.
example : Grammar.fromAst hiddenEpsAst = .ok (firstG hiddenEpsAst) ∧
    (firstG hiddenEpsAst).first 9 [.nonTerm "N".toList, .strLit "b".toList] = .ok [.strLit "b".toList, .strLit "n".toList] ∧
    (firstG hiddenEpsAst).first 9 [.nonTerm "S".toList] = .error .stackOverflow ∧
    LeftRec (Skipped (Headed (Rule (firstG hiddenEpsAst).prods)) (Rule (firstG hiddenEpsAst).prods)) "S".toList := by
  refine ⟨rfl, by rfl, by rfl, "S".toList, ⟨[.strLit "x".toList], [.nonTerm "N".toList],
    ⟨_, by rw [hiddenEps_prods]; exact .tail _ (.head _), rfl, rfl⟩, ?_⟩, .refl⟩
  rw [nullable_iff]
  intro X hX
  simp only [List.mem_cons, List.not_mem_nil, or_false] at hX
  subst hX
  refine .nt (rhs := [.epsilon]) ⟨.epsilon, [], ⟨_, by rw [hiddenEps_prods]; exact .tail _ (.tail _ (.tail _ (.head _))), rfl, rfl⟩,
    .inl rfl⟩ ?_
  intro Y hY
  simp only [List.mem_cons, List.not_mem_nil, or_false] at hY
  subst hY
  exact .eps

end Verif.Props
