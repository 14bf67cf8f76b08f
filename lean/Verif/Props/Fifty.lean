import Verif.Props.TsParse

/-! # Property: what the generated parser accepts of what the parser in the generator accepts (C91) -/

namespace Verif.Props
open Verif Spec

section
variable {H : Type} [DecidableEq H] {hash : List Item → H} {rx : Str → Option Hir} {ord : Nfa.Order}
  {ps : List Ast.Prod} {start : Ast.Prod} {g : Grammar} {l : Lalr} {T : ParseGen.Tables} {max : Nat}
  {V : Type} {S : Ts.Sem V} {toks : List Ts.Tok} {ss : List Sym} {ks : List Nat}

theorem split_unique {w w' r r' : List Nat} (h : w ++ 0 :: r = w' ++ 0 :: r') (h0 : 0 ∉ w) (h0' : 0 ∉ w') : w = w' := by
  induction w generalizing w' with
  | nil =>
    cases w' with
    | nil => rfl
    | cons b w' => injection h with h1 h2; simp [← h1] at h0'
  | cons a w ih =>
    cases w' with
    | nil => injection h with h1 h2; simp [h1] at h0
    | cons b w' =>
      injection h with h1 h2
      simp only [List.mem_cons, not_or] at h0 h0'
      rw [h1, ih h2 h0.2 h0'.2]

/-- The moves of an accepted list: one for each token before the end marker and one for each reduction. -/
theorem accepted_moves (hB : Generated hash rx ord ps start g l) {w rest out : List Nat} (h0 : 0 ∉ w) {fuel : Nat}
    (hp : Lalr.parseIdx g l.action l.goto fuel (w ++ 0 :: rest) = .ok out) :
    ∃ st st', Lalr.startState (w ++ 0 :: rest) = .ok st ∧
      Runs g l.action l.goto (w ++ 0 :: rest) (w.length + out.length) st st' ∧
      Lalr.step g l.action l.goto (w ++ 0 :: rest) st' = .ok none ∧ w.length + out.length < fuel ∧ st'.i = w.length ∧ st'.out = out := by
  have hok := hB.built.ok
  obtain ⟨look, hT⟩ := hB.built.sound
  unfold Lalr.parseIdx at hp
  cases hs : Lalr.startState (w ++ 0 :: rest) with
  | error e => simp [hs, bind, Except.bind] at hp
  | ok st =>
    cases hr : Lalr.run g l.action l.goto (w ++ 0 :: rest) fuel st with
    | error e => simp [hs, hr, bind, Except.bind] at hp
    | ok st' =>
      simp only [hs, hr, bind, Except.bind, pure, Except.pure, Except.ok.injEq] at hp
      obtain ⟨f, w', hI, ha, S, hS, hroots⟩ :=
        (Lalr.run_spec hok hT fuel (Lalr.Inv.start (look := look) (g := g) (lalr := l.states) hs)).1 st' hr
      obtain ⟨r', hr'⟩ := hI.at_eof hok ha
      have hz : 0 ∉ w' := by
        intro hz
        have hy := hI.yield
        have h1 : g.tokens[0]? ∈ f.yield.map some := hy ▸ List.mem_map.mpr ⟨0, hz, rfl⟩
        obtain ⟨s, h2, h3⟩ := List.mem_map.mp h1
        rw [hok.tok0] at h3
        cases h3
        exact Forest.yield_term f hI.valid _ h2
      have hlen : w'.length = st'.i := hI.len
      have hw := split_unique hr' h0 hz
      obtain ⟨k, hk, h2, h3⟩ := run_ok_iff.mp hr
      have hcount := runs_count h2
      have hst : st.i = 0 ∧ st.out = [] := by
        cases w <;> cases hs <;> exact ⟨rfl, rfl⟩
      rw [hst.1, hst.2, hp, ← hlen, ← hw] at hcount
      simp only [List.length_nil, Nat.zero_add] at hcount
      rw [hcount]; exact ⟨st, st', rfl, h2, h3, hk, by rw [← hlen, hw], hp⟩

theorem runs_cut {toks : List Nat} {n : Nat} {st st' : Lalr.PState} (h : Runs g l.action l.goto toks n st st') :
    ∀ {m : Nat}, m ≤ n → ∃ st'', Runs g l.action l.goto toks m st st'' := by
  induction h with
  | refl => intro m hm; obtain rfl : m = 0 := by omega
            exact ⟨_, .refl⟩
  | head h1 _ ih =>
    intro m hm
    cases m with
    | zero => exact ⟨_, .refl⟩
    | succ m => obtain ⟨st'', h⟩ := ih (m := m) (by omega); exact ⟨st'', .head h1 h⟩

/-- **C91** for names that do not clash and well typed mapping code.  Of the lists of tokens that the parser in the generator accepts, the generated parser accepts those
for which the tokens before the end marker and the reductions are fewer than 50 together; for all others it reports `exceeded max recursion depth`.
Missing: clashing names (`C37_false`, `C37_false_hidden`). -/
theorem C91_exact_partial (hE : Emitted hash rx ord ps start g l T max) (hw : WellTyped S ps) (hh : NoHiding ps)
    {w rest : List Nat} (h0 : 0 ∉ w) (ht : List.Forall₂ (TokenFor g) toks ss) (hk : Numbers g (w ++ 0 :: rest) ss)
    (hl : toks.length ≤ max) {fuel : Nat} {out : List Nat}
    (hp : Lalr.parseIdx g l.action l.goto fuel (w ++ 0 :: rest) = .ok out) :
    ((∃ syms, Ts.parse max S T toks = .symbols syms) ↔ w.length + out.length < 50) ∧
    (Ts.parse max S T toks = .exceeded ↔ 50 ≤ w.length + out.length) := by
  obtain ⟨st, st', hs, hr, hn, -⟩ := accepted_moves hE.gen h0 hp
  obtain ⟨e1, e2, _⟩ := C37_agrees_partial (S := S) hE hw hh ht hk hl hs
  have big : 50 ≤ w.length + out.length → Ts.parse max S T toks = .exceeded := fun h => e2.mpr (runs_cut hr h)
  have small : w.length + out.length < 50 → ∃ syms, Ts.parse max S T toks = .symbols syms := fun h => e1.mpr ⟨_, st', h, hr, hn⟩
  refine ⟨⟨fun ⟨syms, h⟩ => ?_, small⟩, ⟨fun h => ?_, big⟩⟩
  · by_contra hc
    rw [big (by omega)] at h; cases h
  · by_contra hc
    obtain ⟨syms, h'⟩ := small (by omega)
    rw [h] at h'; cases h'

/-- C91 without conditions on types: what the generated parser accepts, the parser in the generator accepts, with fewer than 50
tokens and reductions together. -/
theorem C91_few (hE : Emitted hash rx ord ps start g l T max) {w rest : List Nat} (h0 : 0 ∉ w)
    (ht : List.Forall₂ (TokenFor g) toks ss) (hk : Numbers g (w ++ 0 :: rest) ss) (hl : toks.length ≤ max)
    {syms : List (Ts.Symb V)} (hp : Ts.parse max S T toks = .symbols syms) :
    ∃ out, Lalr.parseIdx g l.action l.goto 50 (w ++ 0 :: rest) = .ok out ∧ w.length + out.length < 50 := by
  obtain ⟨st, hs⟩ : ∃ st, Lalr.startState (w ++ 0 :: rest) = .ok st := by cases w <;> exact ⟨_, rfl⟩
  obtain ⟨n, st', hn, hr, hn'⟩ := (C37_sound_partial (S := S) hE ht hk hl hs).1 ⟨syms, hp⟩
  have hrun : Lalr.run g l.action l.goto (w ++ 0 :: rest) 50 st = .ok st' := run_ok_iff.mpr ⟨n, hn, hr, hn'⟩
  have hp' : Lalr.parseIdx g l.action l.goto 50 (w ++ 0 :: rest) = .ok st'.out := by
    simp only [Lalr.parseIdx, hs, hrun, bind, Except.bind, pure, Except.pure]
  refine ⟨_, hp', ?_⟩
  obtain ⟨st1, st2, hs1, hr1, hn1, -⟩ := accepted_moves hE.gen h0 hp'
  rw [hs] at hs1; cases hs1
  by_contra hc
  obtain ⟨st3, h3⟩ := runs_cut hr1 (m := 50) (by omega)
  rw [run_fuel_iff.mpr ⟨st3, h3⟩] at hrun
  cases hrun

end

/-! ## Sample -/

theorem row_tokens : (lower rowAst).tokens = [.eof, .strLit "x".toList, .strLit "y".toList, .nonTerm "S".toList] := by decide +kernel

theorem row_emitted : Emitted id (fun _ => none) (fun _ l => l) rowAst (startOf rowAst) (lower rowAst) rowL rowT 5000 := by
  refine ⟨⟨expressibleB_sound (by decide +kernel), startOf_eq (by decide +kernel), ok_of_isSome (by decide +kernel),
    ok_of_isSome (by decide +kernel)⟩, ok_of_isSome (by decide +kernel), namesOkB_sound (by decide +kernel),
    literals_distinct ?_, by decide +kernel⟩
  rw [row_tokens]
  intro s hs h
  simp only [List.mem_cons, List.not_mem_nil, or_false] at hs
  rcases hs with rfl | rfl | rfl | rfl
  · exact False.elim h
  · exact ⟨_, rfl, by decide⟩
  · exact ⟨_, rfl, by decide⟩
  · exact False.elim h

theorem row_tokensFor (n : Nat) : List.Forall₂ (TokenFor (lower rowAst)) (rowToks n)
    (List.replicate n (.strLit "x".toList) ++ [.strLit "y".toList, .eof]) := by
  have hx : TokenFor (lower rowAst) ⟨"x".toList, some (.val "x".toList)⟩ (.strLit "x".toList) := litTok_for (by rw [row_tokens]; simp)
  have hy : TokenFor (lower rowAst) ⟨"y".toList, some (.val "y".toList)⟩ (.strLit "y".toList) := litTok_for (by rw [row_tokens]; simp)
  induction n with
  | zero => exact .cons hy (.cons (.inl ⟨rfl, rfl⟩) .nil)
  | succ n ih => exact .cons hx ih

theorem row_numbers (n : Nat) : Numbers (lower rowAst) ((List.replicate n 1 ++ [2]) ++ 0 :: [])
    (List.replicate n (.strLit "x".toList) ++ [.strLit "y".toList, .eof]) := by
  unfold Numbers
  rw [row_tokens]
  induction n with
  | zero => rfl
  | succ n ih =>
    simp only [List.replicate_succ, List.cons_append, List.map_cons]
    rw [ih]; rfl

-- C91: the hypotheses, with 48 moves and with 50.
example : Emitted id (fun _ => none) (fun _ l => l) rowAst (startOf rowAst) (lower rowAst) rowL rowT 5000 ∧ WellTyped textSem rowAst ∧
    NoHiding rowAst ∧ (0 ∉ List.replicate 24 1 ++ [2]) ∧
    (∃ out, Lalr.parseIdx (lower rowAst) rowL.action rowL.goto 51 ((List.replicate 23 1 ++ [2]) ++ 0 :: []) = .ok out ∧ 24 + out.length = 48) ∧
    ∃ out, Lalr.parseIdx (lower rowAst) rowL.action rowL.goto 51 ((List.replicate 24 1 ++ [2]) ++ 0 :: []) = .ok out ∧ 25 + out.length = 50 :=
  ⟨row_emitted, fun _ _ _ _ _ _ => ⟨_, rfl, rfl⟩, noHidingB_sound (by decide +kernel), by decide,
    ⟨(List.range 24).map (fun i => if i = 0 then 2 else 1), ok_of (by decide +kernel), by decide⟩,
    ⟨(List.range 25).map (fun i => if i = 0 then 2 else 1), ok_of (by decide +kernel), by decide⟩⟩

/-- That the two accept the same lists of tokens is false: of `S → "x" S | "y"` the generated parser refuses `x` 24 times and `y`. -/
theorem C91_false : ∃ ps start g l T toks ss ks out, Emitted id (fun _ => none) (fun _ l => l) ps start g l T 5000 ∧ WellTyped textSem ps ∧
    NoHiding ps ∧ List.Forall₂ (TokenFor g) toks ss ∧ Numbers g ks ss ∧ Lalr.parseIdx g l.action l.goto 51 ks = .ok out ∧
    Ts.parse 5000 textSem T toks = .exceeded :=
  ⟨rowAst, startOf rowAst, lower rowAst, rowL, rowT, rowToks 24, _, _, (List.range 25).map (fun i => if i = 0 then 2 else 1), row_emitted,
    fun _ _ _ _ _ _ => ⟨_, rfl, rfl⟩, noHidingB_sound (by decide +kernel), row_tokensFor 24, row_numbers 24, ok_of (by decide +kernel),
    by decide +kernel⟩

end Verif.Props
