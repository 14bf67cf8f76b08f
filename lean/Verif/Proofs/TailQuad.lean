import Verif.Proofs.TailLex
import Verif.Proofs.TsLexOk
import Verif.Proofs.TsLexRun

/-! # A lexer whose chain of tail calls is quadratic -/

namespace Verif.MiniTs
set_option linter.unusedSectionVars false
variable {U : User} {G : Gen}

/-- `ts_eval` for a type expression in tail position. -/
local syntax "tail_eval" (" [" Lean.Parser.Tactic.simpLemma,* "]")? : tactic
macro_rules
  | `(tactic| tail_eval [$args,*]) => `(tactic| simp (maxSteps := 1000000) [evTail, ev, evs, evMems, mget, naked, isPattern, mat, matTup, matObj,
      matchTmpl, splice, test, accepts, concat, partText, keysOf_objN, keysOf_objS, accepts_keysN,
      accepts_keysS, access_objN, access_objS, mget_vals, access_tup, early_objN, early_objS,
      early_undef, lift_undef, early_unknown, lift_unknown, early_str, lift_str, early_string, lift_string, early_template, lift_template, early_num, lift_num, early_number, lift_number, early_bool, lift_bool, early_tup, lift_tup, early_arr, lift_arr, early_obj, lift_obj, early_named, lift_named, early_never, lift_never, lift_any, $args,*])

/-- The arguments of `LexImpl`. -/
def lexArgs (input : Str) (full : List Char) (st : Ts.LexState) : List Ty :=
  [.str input, .tup (full.map fun c => .str [c]), .num st.state, .tup (st.tokens.map tok?), num? st.lexemeBegin, num? st.forward, .tup [],
    last? st.last]

/-- What a step of `LexImpl` needs: a character, its code, the state. -/
structure LexAt (G : Gen) (full : List Char) (f s label : Nat) (c : Char) (x : LexGen.State) : Prop where
  char : full[f]? = some c
  code : codeOf G c = some label
  state : G.lex.states[s]? = some x
  succ : Ts.succ G.max (some f) = some (f + 1)

set_option maxHeartbeats 1000000 in
/-- A matching edge. -/
theorem lexImpl_edge (hG : CharsOk G) {input : Str} {full : List Char} {f s label n b : Nat} {c : Char} {x x2 : LexGen.State}
    {toks : List (Option Ts.Tok)} {last : Option (Option Nat × Nat)}
    (h : LexAt G full f s label c x) (hx : Ts.nextState G.max label x (some 0) = .state n) (h2 : G.lex.states[n]? = some x2) :
    evTail U (lim U (prog G) .lex) (lex.LexImpl.1.zip (lexArgs input full ⟨s, toks, some b, some f, last⟩)) lex.LexImpl.2 =
      some (.tail (name! "LexImpl") (lexArgs input full ⟨n, toks, some b, some (f + 1), if x2.accepting = true then some (some f, n) else last⟩)) := by
  obtain ⟨hc, hcode, hs, hsu⟩ := h
  have hmg := mget_charTable c G.chars hG.char
  rw [show mget c.toNat G.chars = some label from hcode] at hmg
  have hnx := nextState_eq (U := U) (G := G) label x (some 0)
  rw [hx] at hnx
  have hnx := hnx (by simp)
  simp only [num?] at hnx
  have hsucc := succ_eq (U := U) (G := G) (some f)
  rw [hsu] at hsucc
  simp only [num?] at hsucc
  cases hacc : x2.accepting <;>
    tail_eval [lexArgs, lex.LexImpl, num?, hc, characters_eq, access_chars hG, accepts_chars hG, hcode, charTable_eq, hmg, states_eq, hs,
      hnx, next?, lex_succ, hsucc, h2, stateAccepts_eq, hacc, last?]

/-- Back to the last accepting state. -/
theorem lexImpl_back (hG : CharsOk G) {input : Str} {full : List Char} {f s label b l ls : Nat} {c : Char} {x : LexGen.State}
    {toks : List (Option Ts.Tok)} {d : List Nat}
    (h : LexAt G full f s label c x) (hx : Ts.nextState G.max label x (some 0) = .undefined) (hd : mget ls G.lex.dfaToNfa = some d)
    (hsl : Ts.succ G.max (some l) = some (l + 1)) :
    evTail U (lim U (prog G) .lex) (lex.LexImpl.1.zip (lexArgs input full ⟨s, toks, some b, some f, some (some l, ls)⟩)) lex.LexImpl.2 =
      some (.tail (name! "LexImpl") (lexArgs input full
        ⟨0, Ts.tokenDefToToken G.max G.lex ls input (some b) (some l) :: toks, some (l + 1), some (l + 1), none⟩)) := by
  obtain ⟨hc, hcode, hs, hsu⟩ := h
  have hmg := mget_charTable c G.chars hG.char
  rw [show mget c.toNat G.chars = some label from hcode] at hmg
  have hnx := nextState_eq (U := U) (G := G) label x (some 0)
  rw [hx] at hnx
  have hnx := hnx (by simp)
  simp only [num?] at hnx
  have hsucc := succ_eq (U := U) (G := G) (some l)
  rw [hsl] at hsucc
  have htk := tokenDefToToken_eq (U := U) (G := G) ls input (some b) (some l)
  simp only [num?.eq_1, num?.eq_2] at hsucc htk
  tail_eval [lexArgs, lex.LexImpl, num?.eq_1, num?.eq_2, hc, characters_eq, access_chars hG, accepts_chars hG, hcode, charTable_eq,
    hmg, states_eq, hs, hnx, next?, last?, acceptsTup, dfaToNfa_eq, hd, lex_succ, hsucc, htk]

/-- A blank. -/
theorem lexImpl_blank (hG : CharsOk G) {input : Str} {full : List Char} {f s label : Nat} {c : Char} {x : LexGen.State}
    {toks : List (Option Ts.Tok)} (h : LexAt G full f s label c x) (hx : Ts.nextState G.max label x (some 0) = .undefined)
    (hw' : Ts.isWhitespace c = true) :
    evTail U (lim U (prog G) .lex) (lex.LexImpl.1.zip (lexArgs input full ⟨s, toks, some f, some f, none⟩)) lex.LexImpl.2 =
      some (.tail (name! "LexImpl") (lexArgs input full ⟨s, toks, some (f + 1), some (f + 1), none⟩)) := by
  obtain ⟨hc, hcode, hs, hsu⟩ := h
  have hmg := mget_charTable c G.chars hG.char
  rw [show mget c.toNat G.chars = some label from hcode] at hmg
  have hnx := nextState_eq (U := U) (G := G) label x (some 0)
  rw [hx] at hnx
  have hnx := hnx (by simp)
  simp only [num?] at hnx
  have hsucc := succ_eq (U := U) (G := G) (some f)
  rw [hsu] at hsucc
  have hw := isWhitespace_eq (U := U) (G := G) c
  rw [hw'] at hw
  have he := eq_eq (U := U) (G := G) (some f) (some f)
  rw [show Ts.eq (some f) (some f) = some true by simp [Ts.eq, Ts.extendsNum]] at he
  simp only [num?.eq_2, bool?] at he hsucc
  tail_eval [lexArgs, lex.LexImpl, num?.eq_1, num?.eq_2, hc, characters_eq, access_chars hG, accepts_chars hG, hcode, charTable_eq,
    hmg, states_eq, hs, hnx, next?, last?, lex_succ, hsucc, lex_isWhitespace, hw, lex_eq, he]

/-- What the tables of a lexer for `a` and `a+b` have: a state that accepts after one `a`, one that does not after more, and no edge
for a blank. -/
structure Quad (G : Gen) : Prop where
  chars : CharsOk G
  a : ∃ l, codeOf G 'a' = some l ∧ ∃ x0 x1 x2, G.lex.states[0]? = some x0 ∧ G.lex.states[1]? = some x1 ∧ G.lex.states[2]? = some x2 ∧
    x1.accepting = true ∧ x2.accepting = false ∧ Ts.nextState G.max l x0 (some 0) = .state 1 ∧
    Ts.nextState G.max l x1 (some 0) = .state 2 ∧ Ts.nextState G.max l x2 (some 0) = .state 2
  blank : ∃ l, codeOf G ' ' = some l ∧ ∀ i < 3, ∃ x, G.lex.states[i]? = some x ∧ Ts.nextState G.max l x (some 0) = .undefined
  dfa : ∃ d, mget 1 G.lex.dfaToNfa = some d

section
variable {inner : Mod → Call} (hb : Below U (prog G) inner) (Q : Quad G) {k : Nat} {input : Str} {v : Ty}
  (hk : k < G.max)
include hb Q hk

theorem quad_succ {f : Nat} (h : f ≤ k) : Ts.succ G.max (some f) = some (f + 1) := by
  exact Ts.succ_ok (by omega)

/-- Reading the rest of the letters and going back. -/
theorem quad_read : ∀ (e : Nat) {b f s : Nat} {toks : List (Option Ts.Tok)} {j : Nat}, k - f = e → f ≤ k → b < f → (s = 1 ∨ s = 2) →
    chain U (prog G) inner j .lex (name! "LexImpl")
      (lexArgs input (List.replicate k 'a' ++ [' ']) ⟨s, toks, some b, some f, some (some b, 1)⟩) = some v →
    ∃ i toks', j = i + (e + 1) ∧ chain U (prog G) inner i .lex (name! "LexImpl")
      (lexArgs input (List.replicate k 'a' ++ [' ']) ⟨0, toks', some (b + 1), some (b + 1), none⟩) = some v
  | 0, b, f, s, toks, j, he, hf, hbf, hs, h => by
    obtain rfl : f = k := by omega
    obtain ⟨l, hl, hx⟩ := Q.blank
    obtain ⟨x, h1, h2⟩ := hx s (by omega)
    obtain ⟨d, hd⟩ := Q.dfa
    have hat : LexAt G (List.replicate f 'a' ++ [' ']) f s l ' ' x := ⟨by simp, hl, h1, quad_succ hb Q hk (by omega)⟩
    obtain ⟨i, hi, h3⟩ := chain_step hb lex.LexImpl rfl rfl
      (lexImpl_back Q.chars hat h2 hd (quad_succ hb Q hk (by omega))) h
    exact ⟨i, _, by omega, h3⟩
  | e + 1, b, f, s, toks, j, he, hf, hbf, hs, h => by
    obtain ⟨l, hl, x0, x1, x2, g0, g1, g2, a1, a2, n0, n1, n2⟩ := Q.a
    obtain ⟨x, hx, hn⟩ : ∃ x, G.lex.states[s]? = some x ∧ Ts.nextState G.max l x (some 0) = .state 2 := by
      rcases hs with rfl | rfl
      · exact ⟨x1, g1, n1⟩
      · exact ⟨x2, g2, n2⟩
    have hat : LexAt G (List.replicate k 'a' ++ [' ']) f s l 'a' x :=
      ⟨by rw [List.getElem?_append_left (by rw [List.length_replicate]; omega), List.getElem?_replicate, if_pos (by omega)], hl, hx,
        quad_succ hb Q hk (by omega)⟩
    obtain ⟨i, hi, h3⟩ := chain_step hb lex.LexImpl rfl rfl (lexImpl_edge Q.chars hat hn g2) h
    rw [a2] at h3
    obtain ⟨i', toks', hi', h4⟩ := quad_read e (by omega) (by omega) (by omega) (.inr rfl) h3
    exact ⟨i', toks', by omega, h4⟩

/-- From a place between the letters. -/
theorem quad_chain : ∀ (d : Nat) {b : Nat} {toks : List (Option Ts.Tok)} {j : Nat}, k - b = d → b ≤ k →
    chain U (prog G) inner j .lex (name! "LexImpl")
      (lexArgs input (List.replicate k 'a' ++ [' ']) ⟨0, toks, some b, some b, none⟩) = some v → tri (d + 1) + 1 ≤ j
  | 0, b, toks, j, hd, hbk, h => by
    obtain rfl : b = k := by omega
    obtain ⟨l, hl, hx⟩ := Q.blank
    obtain ⟨x, h1, h2⟩ := hx 0 (by omega)
    have hat : LexAt G (List.replicate b 'a' ++ [' ']) b 0 l ' ' x := ⟨by simp, hl, h1, quad_succ hb Q hk (by omega)⟩
    obtain ⟨i, hi, h3⟩ := chain_step hb lex.LexImpl rfl rfl (lexImpl_blank Q.chars hat h2 rfl) h
    have := chain_pos h3
    simp only [tri]
    omega
  | d + 1, b, toks, j, hd, hbk, h => by
    obtain ⟨l, hl, x0, x1, x2, g0, g1, g2, a1, a2, n0, n1, n2⟩ := Q.a
    have hat : LexAt G (List.replicate k 'a' ++ [' ']) b 0 l 'a' x0 :=
      ⟨by rw [List.getElem?_append_left (by rw [List.length_replicate]; omega), List.getElem?_replicate, if_pos (by omega)], hl, g0,
        quad_succ hb Q hk (by omega)⟩
    obtain ⟨i, hi, h3⟩ := chain_step hb lex.LexImpl rfl rfl (lexImpl_edge Q.chars hat n0 g1) h
    rw [a1] at h3
    obtain ⟨i', toks', hi', h4⟩ := quad_read hb Q hk (k - (b + 1)) rfl (by omega) (by omega) (.inl rfl) h3
    have := quad_chain d (by omega) (by omega) h4
    simp only [tri] at this ⊢
    omega

end

/-- `Lex` instantiates `LexImpl` with the characters of the text. -/
theorem lex_inner (hG : CharsOk G) {N n : Nat} {s : Str} {v : Ty} (hcode : ∀ c ∈ s, (codeOf G c).isSome = true)
    (h : runTail U (prog G) N (n + 1) .lex (name! "Lex") [.str s] = some v) :
    ∃ a, runTail U (prog G) N n .lex (name! "LexImpl") (lexArgs s s ⟨0, [], some 0, some 0, none⟩) = some a := by
  rw [runTail] at h
  cases N with
  | zero => simp [chain] at h
  | succ N =>
    rw [chain, show prog G .lex (name! "Lex") = some ⟨.lex, lex.Lex.1, lex.Lex.2⟩ from rfl] at h
    dsimp only at h
    rw [if_pos (show lex.Lex.1.length = [Ty.str s].length from rfl)] at h
    cases ho : evTail U (runTail U (prog G) (N + 1) n .lex) (lex.Lex.1.zip [.str s]) lex.Lex.2 with
    | none => rw [ho] at h; cases h
    | some o =>
      unfold lex.Lex at ho
      rw [evTail] at ho
      obtain ⟨a, h1, _⟩ := Option.bind_eq_some_iff.mp ho
      rw [ev] at h1
      obtain ⟨vs, h2, h3⟩ := Option.bind_eq_some_iff.mp h1
      obtain ⟨w1, w2, w3, w4, w5, w6, w7, w8, e1, e2, e3, e4, e5, e6, e7, e8, rfl⟩ := evs_eight h2
      simp only [List.zip_cons_cons, ev, evs, mget, if_true, Option.bind_some, Option.map_some] at e2
      have hw := below_runTail _ _ _ _ e2
      have hc := (charList_eq (U := U) hG s []).1 s (by simpa using Lex.charList_ok hcode [])
      simp only [List.map_nil] at hc
      rw [hc] at hw
      simp only [List.zip_cons_cons, ev, evs, mget, if_true, Option.some.injEq, Option.map_some] at e1 e3 e4 e5 e6 e7 e8 hw
      subst e1 e3 e4 e5 e6 e7 e8 hw
      exact ⟨a, h3⟩

/-- `Lex` of letters and a blank takes a chain that grows with the square of their number. -/
theorem quad_lex (Q : Quad G) {N n k : Nat} {v : Ty} (hk : k < G.max)
    (h : runTail U (prog G) N n .lex (name! "Lex") [.str (List.replicate k 'a' ++ [' '])] = some v) : tri (k + 1) + 1 ≤ N := by
  have hcode : ∀ c ∈ List.replicate k 'a' ++ [' '], (codeOf G c).isSome = true := by
    intro c hc
    rw [List.mem_append] at hc
    rcases hc with hc | hc
    · rw [List.eq_of_mem_replicate hc]
      obtain ⟨l, hl, _⟩ := Q.a
      rw [hl]; rfl
    · rw [List.mem_singleton.mp hc]
      obtain ⟨l, hl, _⟩ := Q.blank
      rw [hl]; rfl
  cases n with
  | zero => simp [runTail] at h
  | succ n =>
    obtain ⟨a, ha⟩ := lex_inner Q.chars hcode h
    cases n with
    | zero => simp [runTail] at ha
    | succ n =>
      rw [runTail] at ha
      exact quad_chain below_runTail Q hk k (by omega) (by omega) ha

end Verif.MiniTs
