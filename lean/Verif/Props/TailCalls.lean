import Verif.Proofs.TailRank
import Verif.Proofs.TailLen
import Verif.Proofs.TailParse
import Verif.Props.TsFiles

/-! # Properties C81 to C83: tail calls

README.md:77-81: the type-level code "is all tail calls"; yet "with longer/more complex inputs
Typescript hits the recursion limit", and it is not known whether there is "an infinite loop". -/

namespace Verif.Props
open Verif Spec MiniTs

variable {U : User}

theorem ev_imp {c c' : Call} (h : ∀ x as v, c x as = some v → c' x as = some v) {env : Env} {e : Exp} {t : Ty}
    (he : ev U c env e = some t) : ev U c' env e = some t := ev_on e env t (fun _ _ _ _ _ hq => h _ _ _ hq) he

/-! ## C81 -/

/-- With tail calls, nine pending instantiations are enough for every type written with the
declarations of the three files and the generated files, whatever the grammar and however long the
text; and they give the same types. -/
theorem C81_tail (G : Gen) (m : Mod) (e : Exp) (t : Ty) :
    TypeIs U G m e t ↔ ∃ N, ev U (runTail U (prog G) N 9 m) [] e = some t := by
  constructor
  · rintro ⟨n, h⟩
    exact ⟨n, ev_imp (fun x as v hv => runTail_of_run (ranked G) (by have := rankOf_le G m x; omega) (Nat.le_refl n) hv) h⟩
  · rintro ⟨N, h⟩
    exact ⟨9 * N, ev_imp (fun x as v hv => run_of_runTail hv) h⟩

/-- Eight for `Lex`, and no chain is longer than the nesting without tail calls. -/
theorem C81_lex {G : Gen} {n : Nat} {s : Str} {t : Ty} (h : run U (prog G) n .lex "Lex".toList [.str s] = some t) :
    runTail U (prog G) n 8 .lex "Lex".toList [.str s] = some t :=
  runTail_of_run (ranked G) (show 7 < 8 by omega) (Nat.le_refl n) h

/-- Six for `Parse`. -/
theorem C81_parse {G : Gen} {n : Nat} {toks t : Ty} (h : run U (prog G) n .parse "Parse".toList [toks] = some t) :
    runTail U (prog G) n 6 .parse "Parse".toList [toks] = some t :=
  runTail_of_run (ranked G) (show 5 < 6 by omega) (Nat.le_refl n) h

/-- Without tail calls no number is enough: the nesting grows with the text. -/
theorem C81_needed {G : Gen} (hc : G.chars = LexGen.charMap) {n : Nat} {s : Str} {t : Ty}
    (hs : ∀ c ∈ s, (LexGen.charCode c).isSome = true) (h : run U (prog G) n .lex "Lex".toList [.str s] = some t) :
    2 * s.length + 3 ≤ n :=
  lex_chain (chars_ok hc) (by rw [codeOf_eq hc]; exact hs) (C81_lex h)

/-! ## C82 -/

/-- The chain of tail calls grows with the text: no result within fewer than two calls for each
character and three more. -/
theorem C82_length {G : Gen} (hc : G.chars = LexGen.charMap) {N k : Nat} {s : Str} {t : Ty}
    (hs : ∀ c ∈ s, (LexGen.charCode c).isSome = true) (h : runTail U (prog G) N k .lex "Lex".toList [.str s] = some t) :
    2 * s.length + 3 ≤ N :=
  lex_chain (chars_ok hc) (by rw [codeOf_eq hc]; exact hs) h

/-- No bound on the chain is enough for all texts, however many instantiations may be pending. -/
theorem C82_limit {G : Gen} (hc : G.chars = LexGen.charMap) (N k : Nat) {s : Str}
    (hs : ∀ c ∈ s, (LexGen.charCode c).isSome = true) (hN : N < 2 * s.length + 3) :
    runTail U (prog G) N k .lex "Lex".toList [.str s] = none := by
  cases h : runTail U (prog G) N k .lex "Lex".toList [.str s] with
  | none => rfl
  | some t => exact absurd (C82_length hc hs h) (by omega)

/-! ## C83 -/

/-- `Parse` does not loop: whatever the tables of the parser, the tokens and the bounds on the
instantiations inside, there are no 102 tail calls after it. -/
theorem C83_noLoop (G : Gen) (N k : Nat) (toks : List Ty) {n : Nat} (hn : 102 ≤ n) :
    after U (prog G) (runTail U (prog G) N k) n .parse "Parse".toList toks = none := by
  obtain ⟨i, rfl⟩ := Nat.exists_eq_add_of_le hn
  exact after_none_add i (parse_after below_runTail toks)

/-- A chain of 102 is enough for `Parse`, whatever is enough for the instantiations inside. -/
theorem C83_chain {G : Gen} {N k : Nat} {toks : List Ty} {t : Ty} (h : runTail U (prog G) N (k + 1) .parse "Parse".toList toks = some t) :
    chain U (prog G) (runTail U (prog G) N k) 102 .parse "Parse".toList toks = some t :=
  chain_of_after 102 (parse_after below_runTail toks) h

/-! ## Cases -/

-- C81: the type of `Parse<L.Lex<" x ab">>` with nine pending instantiations.
example : ∃ N, ev wordUser (runTail wordUser (prog (genOf 5000 wordL wordT)) N 9 .parse) [] (parseOfLex " x ab".toList) =
    some (.tup [kindValue "S".toList (some (.str "ab".toList))]) := (C81_tail _ _ _ _).mp word_typeIs

theorem word_lex_run : ∃ n t, run wordUser (prog (genOf 5000 wordL wordT)) n .lex "Lex".toList [.str " x ab".toList] = some t := by
  have hlex : Lex.fromTokens (fun _ l => l) wordDefs = .ok wordL.lexer := by
    obtain ⟨_, hx, _⟩ := new_ok word_generated.new
    obtain ⟨ds, h1, h2⟩ := Grammar.lexer_ok hx
    obtain rfl : ds = wordDefs := Except.ok.inj (h1.symm.trans word_defs)
    exact h2
  obtain ⟨out, err, _, _, n, h⟩ := C57_lex_partial (U := wordUser) (G := genOf 5000 wordL wordT) reorders_id hlex word_atoms word_nonVoid
    (by simp only [genOf]) (by simp only [genOf]) (input := " x ab".toList) (by decide +kernel) (by rw [charCode_fun]; decide +kernel)
  rw [ev_applied] at h
  exact ⟨n, _, h⟩

-- C81, C82: the hypotheses for the text ` x ab`, which takes a chain of at least 13.
example : ∃ n t, run wordUser (prog (genOf 5000 wordL wordT)) n .lex "Lex".toList [.str " x ab".toList] = some t ∧
    runTail wordUser (prog (genOf 5000 wordL wordT)) n 8 .lex "Lex".toList [.str " x ab".toList] = some t ∧
    (∀ c ∈ " x ab".toList, (LexGen.charCode c).isSome = true) ∧ 13 ≤ n := by
  obtain ⟨n, t, h⟩ := word_lex_run
  have hs : ∀ c ∈ " x ab".toList, (LexGen.charCode c).isSome = true := by rw [charCode_fun]; decide +kernel
  exact ⟨n, t, h, C81_lex h, hs, C81_needed (by simp only [genOf]) hs h⟩

-- C81: `Parse` of some list of tokens.
example : ∃ n toks t, run wordUser (prog (genOf 5000 wordL wordT)) n .parse "Parse".toList [toks] = some t ∧
    runTail wordUser (prog (genOf 5000 wordL wordT)) n 6 .parse "Parse".toList [toks] = some t := by
  obtain ⟨n, h⟩ := word_typeIs
  rw [parseOfLex, ev] at h
  obtain ⟨vs, h1, h2⟩ := Option.bind_eq_some_iff.mp h
  simp only [evs] at h1
  obtain ⟨a, _, h3⟩ := Option.bind_eq_some_iff.mp h1
  obtain rfl : [a] = vs := Option.some.inj h3
  exact ⟨n, a, _, h2, C81_parse h2⟩

-- C83: the chain of `Parse` of some list of tokens.
example : ∃ N toks t, runTail wordUser (prog (genOf 5000 wordL wordT)) N 9 .parse "Parse".toList [toks] = some t ∧
    chain wordUser (prog (genOf 5000 wordL wordT)) (runTail wordUser (prog (genOf 5000 wordL wordT)) N 8) 102 .parse "Parse".toList [toks] = some t := by
  obtain ⟨N, h⟩ := (C81_tail _ _ _ _).mp word_typeIs
  rw [parseOfLex, ev] at h
  obtain ⟨vs, h1, h2⟩ := Option.bind_eq_some_iff.mp h
  simp only [evs] at h1
  obtain ⟨a, _, h3⟩ := Option.bind_eq_some_iff.mp h1
  obtain rfl : [a] = vs := Option.some.inj h3
  exact ⟨N, a, _, h2, C83_chain h2⟩

-- C82: the compiler gives up after a thousand tail calls, so five hundred letters are too many.
example (k : Nat) : runTail wordUser (prog (genOf 5000 wordL wordT)) 1000 k .lex "Lex".toList [.str (List.replicate 500 'a')] = none :=
  C82_limit (by simp only [genOf]) 1000 k
    (fun c hc => by rw [List.eq_of_mem_replicate hc, charCode_fun]; decide +kernel) (by rw [List.length_replicate]; omega)

end Verif.Props
