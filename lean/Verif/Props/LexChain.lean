import Verif.Proofs.TailQuad
import Verif.Props.TailCalls
import Verif.Props.TsExact

/-! # Property C84: `LexImpl` does not loop, and how long its chain of tail calls is

README.md:79-81 leaves open whether there is "an infinite loop".  `LexImpl` (ts/lex.ts:98-176) goes
back to the last accepting state when there is no edge, so it may read the text many times. -/

namespace Verif.Props
open Verif Spec MiniTs

variable {U : User}

/-! ## C84 -/

/-- `LexImpl` does not loop: whatever the tables of the lexer and the elements of the list it
reads, there are at most n(n+1)/2 tail calls for n elements. -/
theorem C84_noLoop (G : Gen) (N k : Nat) (full : List Ty) (input : Ty) {n : Nat} (hn : full.length * (full.length + 1) / 2 < n) :
    after U (prog G) (runTail U (prog G) N k) n .lex "LexImpl".toList
      [input, .tup full, .num 0, .tup [], .num 0, .num 0, .tup [], .undef] = none := by
  obtain ⟨i, rfl⟩ := Nat.exists_eq_add_of_le hn
  exact after_none_add i (lexStart_after below_runTail full input _ _ _)

/-- A chain of n(n+1)/2+1 is enough for `LexImpl`, whatever is enough for the instantiations inside. -/
theorem C84_chain {G : Gen} {N k : Nat} {full : List Ty} {input t : Ty}
    (h : runTail U (prog G) N (k + 1) .lex "LexImpl".toList [input, .tup full, .num 0, .tup [], .num 0, .num 0, .tup [], .undef] = some t) :
    chain U (prog G) (runTail U (prog G) N k) (full.length * (full.length + 1) / 2 + 1) .lex "LexImpl".toList
      [input, .tup full, .num 0, .tup [], .num 0, .num 0, .tup [], .undef] = some t :=
  chain_of_after _ (lexStart_after below_runTail full input _ _ _) h

/-- The tokens `a` and `a+b`. -/
def quadDefs : List (TokenDef × Hir) :=
  [(⟨"a".toList, true, some 1⟩, .lit 97), (⟨"a+b".toList, true, some 2⟩, .concat [.rep .oneOrMore (.lit 97), .lit 98])]

/-- Their lexer. -/
def quadLx : Lex := (Lex.fromTokens (fun _ l => l) quadDefs).toOption.getD ⟨⟨[], [], [], []⟩, [], []⟩

theorem quad_ok : Lex.fromTokens (fun _ l => l) quadDefs = .ok quadLx := ok_of (by decide +kernel)

theorem quad_states : (LexGen.Tables.new quadLx).states =
    [⟨[1], [(97, 98)], false⟩, ⟨[2, 3], [(97, 98), (98, 99)], true⟩, ⟨[2, 3], [(97, 98), (98, 99)], false⟩, ⟨[], [], true⟩] := by
  decide +kernel

theorem quad_tables {G : Gen} (hc : G.chars = LexGen.charMap) (hl : G.lex = LexGen.Tables.new quadLx) (hm : 98 ≤ G.max) : Quad G := by
  have hns : ∀ (x : LexGen.State) (l : Nat), l ≤ 98 → (∀ r ∈ x.labels, r.1 ≤ 98) → x.labels.length ≤ 98 → x.to.length = x.labels.length →
      Ts.nextState G.max l x (some 0) = match (x.to.zip x.labels).find? fun p => decide (p.2.1 ≤ l) && decide (l < p.2.2) with
        | some p => .state p.1
        | none => .undefined := by
    intro x l h1 h2 h3 h4
    exact Ts.nextState_eq (by omega) (fun r hr => Nat.le_trans (h2 r hr) hm) (by omega) h4 _ 0 rfl (by omega)
  have hst := hl ▸ quad_states
  refine ⟨chars_ok hc, ⟨97, ?_, _, _, _, by rw [hst]; rfl, by rw [hst]; rfl, by rw [hst]; rfl, rfl, rfl, ?_, ?_, ?_⟩, ⟨32, ?_, ?_⟩, ?_⟩
  · rw [codeOf_eq hc, charCode_fun]; decide +kernel
  · rw [hns _ _ (by decide) (by decide) (by decide) (by decide)]; rfl
  · rw [hns _ _ (by decide) (by decide) (by decide) (by decide)]; rfl
  · rw [hns _ _ (by decide) (by decide) (by decide) (by decide)]; rfl
  · rw [codeOf_eq hc, charCode_fun]; decide +kernel
  · intro i hi
    rw [hst]
    match i, hi with
    | 0, _ => exact ⟨_, rfl, by rw [hns _ _ (by decide) (by decide) (by decide) (by decide)]; rfl⟩
    | 1, _ => exact ⟨_, rfl, by rw [hns _ _ (by decide) (by decide) (by decide) (by decide)]; rfl⟩
    | 2, _ => exact ⟨_, rfl, by rw [hns _ _ (by decide) (by decide) (by decide) (by decide)]; rfl⟩
  · rw [hl]
    exact Option.isSome_iff_exists.mp (by decide +kernel)

/-- The bound is reached: with the tokens `a` and `a+b`, a text of n-1 letters `a` and a blank
takes a chain of n(n+1)/2+1, however many instantiations may be pending. -/
theorem C84_reached {G : Gen} (hc : G.chars = LexGen.charMap) (hl : G.lex = LexGen.Tables.new quadLx) (hm : 98 ≤ G.max) {N k n : Nat}
    (hn : n < G.max) {t : Ty} (h : runTail U (prog G) N k .lex "Lex".toList [.str (List.replicate n 'a' ++ [' '])] = some t) :
    (n + 1) * (n + 2) / 2 + 1 ≤ N := by
  have := quad_lex (quad_tables hc hl hm) hn h
  rw [tri_eq] at this
  exact this

/-! ## Cases -/

-- C84: `LexImpl` for the five characters of ` x ab` and the word grammar, within a chain of 16.
example : ∃ N t, runTail wordUser (prog (genOf 5000 wordL wordT)) N 7 .lex "LexImpl".toList
      [.str " x ab".toList, .tup (" x ab".toList.map fun c => .str [c]), .num 0, .tup [], .num 0, .num 0, .tup [], .undef] = some t ∧
    chain wordUser (prog (genOf 5000 wordL wordT)) (runTail wordUser (prog (genOf 5000 wordL wordT)) N 6) 16 .lex "LexImpl".toList
      [.str " x ab".toList, .tup (" x ab".toList.map fun c => .str [c]), .num 0, .tup [], .num 0, .num 0, .tup [], .undef] = some t := by
  obtain ⟨n, t, h⟩ := word_lex_run
  have hs : ∀ c ∈ " x ab".toList, (LexGen.charCode c).isSome = true := by rw [charCode_fun]; decide +kernel
  obtain ⟨a, ha⟩ := lex_inner (chars_ok (by simp only [genOf])) (by rw [codeOf_eq (by simp only [genOf])]; exact hs) (C81_lex h)
  exact ⟨n, a, ha, C84_chain ha⟩

/-- Some generated files with the lexer for `a` and `a+b`. -/
def quadGen : Gen := { genOf 5000 wordL wordT with lex := LexGen.Tables.new quadLx }

-- C84: such a text has a result, within a long enough chain.
example : ∃ N t, runTail wordUser (prog quadGen) N 8 .lex "Lex".toList [.str (List.replicate 44 'a' ++ [' '])] = some t ∧ 1036 ≤ N := by
  have hlx := quad_ok
  have hs : ∀ c ∈ List.replicate 44 'a' ++ [' '], (LexGen.charCode c).isSome = true := by rw [charCode_fun]; decide +kernel
  have hcov : Covered quadGen.max (LexGen.Tables.new quadLx) (List.replicate 44 'a' ++ [' ']) := by
    refine ⟨by simp only [quadGen, genOf]; omega, by simp only [quadGen, genOf]; decide, ?_, ?_⟩ <;> rw [quad_states] <;>
      simp only [quadGen, genOf] <;> decide
  obtain ⟨_, _, _, _, _, _, n, h⟩ := C57_exact (U := wordUser) (G := quadGen) reorders_id hlx (by simp only [quadGen, genOf]) rfl hcov hs
  rw [ev_applied] at h
  have := C81_lex h
  exact ⟨n, _, this, C84_reached (by simp only [quadGen, genOf]) rfl (by simp only [quadGen, genOf]; omega) (by simp only [quadGen, genOf]; omega) this⟩

-- C84: the compiler gives up after a thousand tail calls, so 44 letters are too many.
example (k : Nat) : runTail wordUser (prog quadGen) 1000 k .lex "Lex".toList [.str (List.replicate 44 'a' ++ [' '])] = none := by
  cases h : runTail wordUser (prog quadGen) 1000 k .lex "Lex".toList [.str (List.replicate 44 'a' ++ [' '])] with
  | none => rfl
  | some t =>
    exact absurd (C84_reached (by simp only [quadGen, genOf]) rfl (by simp only [quadGen, genOf]; omega)
      (by simp only [quadGen, genOf]; omega) h) (by omega)

end Verif.Props
