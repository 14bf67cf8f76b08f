import Verif.Proofs.LexGenOk
import Verif.Proofs.DfaTest

/-! The lexer of ts/lex.ts on generated tables. -/

namespace Verif
open Spec

namespace Ts

theorem trueOrNever_some (b : Bool) : trueOrNever (some b) = b := by cases b <;> rfl

theorem rangeContains_eq {max label : Nat} {r : Nat × Nat} (h1 : label ≤ max) (h2 : r.1 ≤ max) :
    rangeContains max r label = (decide (r.1 ≤ label) && decide (label < r.2)) := by
  unfold rangeContains
  rw [gte_ok h1 h2, trueOrNever_some]
  congr 1
  by_cases h3 : r.2 ≤ max
  · rw [lt_ok h1 h3, trueOrNever_some]
  · have hne : label ≠ r.2 := by omega
    have hlt : label < r.2 := by omega
    have : trueOrNever (lt max (some label) (some r.2)) = true := by
      unfold lt extendsNum
      simp only [Option.some.injEq, hne, decide_false]
      cases label with
      | zero =>
        obtain ⟨b, hb⟩ : ∃ b, r.2 = b + 1 := ⟨r.2 - 1, by omega⟩
        rw [hb]; unfold gtImpl; rfl
      | succ a => rw [gtImpl_beyond (by omega) (by omega)]; rfl
    rw [this]; simp [hlt]

theorem nextState_eq {max label : Nat} {st : LexGen.State} (hl : label ≤ max)
    (hlo : ∀ r ∈ st.labels, r.1 ≤ max) (hlen : st.labels.length ≤ max)
    (hto : st.to.length = st.labels.length) : ∀ (k n : Nat), st.labels.length - n = k → n ≤ st.labels.length →
    nextState max label st (some n) =
      match ((st.to.zip st.labels).drop n).find?
          fun p => decide (p.2.1 ≤ label) && decide (label < p.2.2) with
      | some p => .state p.1
      | none => .undefined
  | k, n, hk, hn => by
    unfold nextState
    by_cases h : n < st.labels.length
    · rw [dif_pos h, rangeContains_eq hl (hlo _ (List.getElem_mem h))]
      have hz : n < (st.to.zip st.labels).length := by simp [hto, h]
      rw [List.drop_eq_getElem_cons hz, List.find?_cons]
      simp only [List.getElem_zip]
      by_cases hc : (decide (st.labels[n].1 ≤ label) && decide (label < st.labels[n].2)) = true
      · rw [if_pos hc, hc, List.getElem?_eq_getElem (by omega)]
      · rw [if_neg hc, succ_ok (by omega),
          nextState_eq hl hlo hlen hto (k - 1) (n + 1) (by omega) (by omega)]
        simp only [Bool.not_eq_true] at hc
        rw [hc]
    · rw [dif_neg h]
      rw [List.drop_eq_nil_of_le (by simp [hto]; omega)]
      rfl
termination_by k => k

end Ts

namespace Lex

/-- What the arithmetic tables must cover. -/
structure Fits (max : Nat) (lx : Lex) : Prop where
  lows : ∀ s, ∀ e ∈ lx.dfa.edgeIter s, e.label.lo ≤ max
  fan : ∀ s, (lx.dfa.edgeIter s).length ≤ max
  chars : 255 ≤ max

theorem edgeIter_sub {d : Dfa} {s : Nat} {e : DEdge} (h : e ∈ d.edgeIter s) : e ∈ d.edges := by
  unfold Dfa.edgeIter at h
  cases hs : d.states[s]?.bind id with
  | none => simp [hs] at h
  | some i =>
    rw [hs] at h
    exact List.mem_of_mem_drop ((List.takeWhile_prefix _).subset h)

theorem nextState_find {max : Nat} {lx : Lex} (hf : Fits max lx) {c : Char} (hc : c.toNat ≤ 255) (s : Nat) :
    Ts.nextState max c.toNat (LexGen.State.fromLexState lx.dfa s) (some 0) =
      match lx.dfa.findEdge s c with
      | some e => .state e.dst
      | none => .undefined := by
  have hchars := hf.chars
  rw [Ts.nextState_eq (st := LexGen.State.fromLexState lx.dfa s) (by omega) ?_ (by
    simpa [LexGen.State.fromLexState] using hf.fan s) (by simp [LexGen.State.fromLexState]) _ 0 rfl (by omega)]
  · unfold Dfa.findEdge
    simp only [LexGen.State.fromLexState, List.drop_zero, List.zip_map', List.find?_map]
    have : ((fun p : Nat × Nat × Nat => decide (p.2.1 ≤ c.toNat) && decide (c.toNat < p.2.2)) ∘
        fun a : DEdge => (a.dst, a.label.lo, a.label.hi)) = fun e => e.label.matchesC c := by
      funext e; rfl
    rw [this]
    cases List.find? (fun e => e.label.matchesC c) (lx.dfa.edgeIter s) <;> rfl
  · intro r hr
    simp only [LexGen.State.fromLexState, List.mem_map] at hr
    obtain ⟨e, he, rfl⟩ := hr
    exact hf.lows s e he

/-- The lexer loop with pieces (start, index of the last character, DFA state)
instead of tokens. -/
structure CState where
  out : List (Nat × Nat × Nat)
  state : Nat
  start : Nat
  forward : Nat
  last : Option (Nat × Nat)

/-- The loop; the second component is the character it broke off at. -/
def cutLoop (lx : Lex) (input : Str) : Nat → CState → Option (CState × Option Char)
  | fuel, st =>
    match input[st.forward]? with
    | none => some (st, none)
    | some c =>
      match fuel with
      | 0 => none
      | fuel + 1 =>
        match lx.dfa.findEdge st.state c with
        | some e =>
          cutLoop lx input fuel
            { st with
              last := if (lx.acceptOf e.dst).isSome then some (st.forward, e.dst) else st.last
              state := e.dst
              forward := st.forward + 1 }
        | none =>
          match st.last with
          | some (li, ls) =>
            cutLoop lx input fuel
              { out := st.out ++ [(st.start, li, ls)], state := 0, start := li + 1, forward := li + 1, last := none }
          | none =>
            if isWhitespace c && st.forward == st.start then
              cutLoop lx input fuel { st with forward := st.forward + 1, start := st.start + 1 }
            else some (st, some c)

theorem cutLoop_step (lx : Lex) (input : Str) (fuel : Nat) (st : CState) :
    cutLoop lx input (fuel + 1) st =
      match input[st.forward]? with
      | none => some (st, none)
      | some c =>
        match lx.dfa.findEdge st.state c with
        | some e =>
          cutLoop lx input fuel
            { st with
              last := if (lx.acceptOf e.dst).isSome then some (st.forward, e.dst) else st.last
              state := e.dst
              forward := st.forward + 1 }
        | none =>
          match st.last with
          | some (li, ls) =>
            cutLoop lx input fuel
              { out := st.out ++ [(st.start, li, ls)], state := 0, start := li + 1, forward := li + 1, last := none }
          | none =>
            if isWhitespace c && st.forward == st.start then
              cutLoop lx input fuel { st with forward := st.forward + 1, start := st.start + 1 }
            else some (st, some c) := by
  rw [cutLoop]

theorem cutLoop_end (lx : Lex) (input : Str) (fuel : Nat) (st : CState)
    (h : input[st.forward]? = none) : cutLoop lx input fuel st = some (st, none) := by
  unfold cutLoop; rw [h]

/-- Invariant shared by the comparisons. -/
structure CInv (lx : Lex) (input : Str) (st : CState) : Prop where
  len : st.forward ≤ input.length
  start : st.start ≤ st.forward
  state : st.state < lx.dfa.states.length
  last : ∀ li ls, st.last = some (li, ls) → st.start ≤ li ∧ li < st.forward ∧
    ls < lx.dfa.states.length ∧ (lx.acceptOf ls).isSome = true
  out : ∀ p ∈ st.out, p.1 ≤ p.2.1 ∧ p.2.1 < input.length ∧ p.2.2 < lx.dfa.states.length ∧
    (lx.acceptOf p.2.2).isSome = true

theorem CInv.edge {lx : Lex} {input : Str} {st : CState} (h : CInv lx input st)
    (hb : ∀ e ∈ lx.dfa.edges, e.dst < lx.dfa.states.length) {c : Char} (hc : input[st.forward]? = some c)
    {e : DEdge} (he : lx.dfa.findEdge st.state c = some e) :
    CInv lx input { st with
      last := if (lx.acceptOf e.dst).isSome then some (st.forward, e.dst) else st.last
      state := e.dst
      forward := st.forward + 1 } := by
  have hlt := (List.getElem?_eq_some_iff.mp hc).1
  have hed : e.dst < lx.dfa.states.length := hb e (edgeIter_sub (List.mem_of_find?_eq_some he))
  have hst := h.start
  refine ⟨by simp only; omega, by simp only; omega, hed, ?_, h.out⟩
  intro li ls hl
  simp only at hl ⊢
  by_cases ha : (lx.acceptOf e.dst).isSome = true
  · rw [if_pos ha] at hl
    cases hl
    exact ⟨h.start, by omega, hed, ha⟩
  · rw [if_neg ha] at hl
    obtain ⟨h1, h2, h3⟩ := h.last li ls hl
    exact ⟨h1, by omega, h3⟩

theorem CInv.tok {lx : Lex} {input : Str} {st : CState} (h : CInv lx input st)
    (h0 : 0 < lx.dfa.states.length) {li ls : Nat} (hl : st.last = some (li, ls)) :
    CInv lx input ⟨st.out ++ [(st.start, li, ls)], 0, li + 1, li + 1, none⟩ := by
  have hlast := h.last li ls hl
  have hlen := h.len
  refine ⟨by simp only; omega, Nat.le_refl _, h0, by simp, ?_⟩
  intro p hp
  simp only [List.mem_append, List.mem_singleton] at hp
  rcases hp with hp | rfl
  · exact h.out p hp
  · exact ⟨hlast.1, by simp only; omega, hlast.2.2⟩

theorem CInv.ws {lx : Lex} {input : Str} {st : CState} (h : CInv lx input st) {c : Char}
    (hc : input[st.forward]? = some c) (hl : st.last = none) :
    CInv lx input { st with forward := st.forward + 1, start := st.start + 1 } := by
  have hlt := (List.getElem?_eq_some_iff.mp hc).1
  have := h.start
  refine ⟨by simp only; omega, by simp only; omega, h.state, ?_, h.out⟩
  intro li ls hl'
  simp only [hl] at hl'
  cases hl'

/-! ## ts/lex.ts is the loop -/

/-- The TypeScript token of a piece. -/
def tokTs (max : Nat) (lx : Lex) (input : Str) (p : Nat × Nat × Nat) : Option Ts.Tok :=
  Ts.tokenDefToToken max (LexGen.Tables.new lx) p.2.2 input (some p.1) (some p.2.1)

/-- The arguments of `LexImpl` for a state of the loop. -/
def tsOf (max : Nat) (lx : Lex) (input : Str) (st : CState) : Ts.LexState :=
  { state := st.state
    tokens := (st.out.map (tokTs max lx input)).reverse
    lexemeBegin := some st.start
    forward := some st.forward
    last := st.last.map fun p => (some p.1, p.2) }

/-- The result of `LexImpl` for a result of the loop. -/
def tsRes (max : Nat) (lx : Lex) (input : Str) : Option (CState × Option Char) → Ts.LexRes
  | none => .outOfFuel
  | some (st, none) => .tuple (tsOf max lx input st).tokens (tsOf max lx input st).last
      (tsOf max lx input st).lexemeBegin none
  | some (st, some c) => .tuple (tsOf max lx input st).tokens none
      (tsOf max lx input st).lexemeBegin (some (c, some st.forward))

theorem new_states {lx : Lex} {s : Nat} (h : s < lx.dfa.states.length) :
    (LexGen.Tables.new lx).states[s]? = some (LexGen.State.fromLexState lx.dfa s) := by
  simp [LexGen.Tables.new, h]

theorem ws_eq (c : Char) : Ts.isWhitespace c = isWhitespace c := by
  simp only [Ts.isWhitespace, isWhitespace]; exact Bool.or_comm _ _

variable {toks : List (TokenDef × Hir)} {lx : Lex} {N : Nfa} {acc : Nat → Nat} {al : List Match}
  {D : List (List Nat)} {s0 : List Nat}

theorem Made.bound (M : Made toks lx N acc al D s0) :
    (∀ e ∈ lx.dfa.edges, e.dst < lx.dfa.states.length) ∧ 0 < lx.dfa.states.length := by
  rw [M.built.spec.len]
  exact ⟨fun e he => (M.built.spec.bound e he).2, (List.getElem?_eq_some_iff.mp M.built.spec.zero).1⟩

theorem Made.toNfa (M : Made toks lx N acc al D s0) {s : Nat} (h : (lx.acceptOf s).isSome = true) :
    ∃ l, mget s (LexGen.Tables.new lx).dfaToNfa = some l := by
  have h1 := M.stateIsAccepting s
  rw [h] at h1
  unfold Dfa.stateIsAccepting at h1
  cases hm : mget s lx.dfa.dfaToNfa with
  | none => simp [hm] at h1
  | some l => exact ⟨l, hm⟩

theorem Made.lexImpl (M : Made toks lx N acc al D s0) {max : Nat} (hf : Fits max lx)
    {code : Char → Option Nat} {input : Str} (hlen : input.length ≤ max)
    (hcode : ∀ c ∈ input, code c = some c.toNat ∧ c.toNat ≤ 255) : ∀ (fuel : Nat) (st : CState),
    CInv lx input st →
    Ts.lexImpl max code (LexGen.Tables.new lx) input input fuel (tsOf max lx input st) =
      tsRes max lx input (cutLoop lx input fuel st) := by
  intro fuel
  induction fuel with
  | zero =>
    intro st _
    unfold Ts.lexImpl cutLoop
    simp only [tsOf]
    cases hc : input[st.forward]? <;> rfl
  | succ fuel ih =>
    intro st h
    rw [cutLoop_step]
    unfold Ts.lexImpl
    simp only [tsOf]
    cases hc : input[st.forward]? with
    | none => rfl
    | some c =>
      have hmem := List.mem_of_getElem? hc
      have hlt := (List.getElem?_eq_some_iff.mp hc).1
      have hsucc : Ts.succ max (some st.forward) = some (st.forward + 1) := Ts.succ_ok (by omega)
      simp only [(hcode c hmem).1, new_states h.state, nextState_find hf (hcode c hmem).2]
      cases he : lx.dfa.findEdge st.state c with
      | some e =>
        simp only
        have h' := h.edge M.bound.1 hc he
        have hed := h'.state
        simp only at hed
        have := ih _ h'
        rw [← this]
        congr 1
        simp only [tsOf, hsucc, new_states hed]
        congr 1
        simp only [LexGen.State.fromLexState, M.stateIsAccepting]
        split <;> simp
      | none =>
        simp only
        cases hl : st.last with
        | some q =>
          obtain ⟨li, ls⟩ := q
          simp only [Option.map_some]
          obtain ⟨h1, h2, h3, h4⟩ := h.last li ls hl
          obtain ⟨l, hm⟩ := M.toNfa h4
          simp only [hm]
          rw [← ih _ (h.tok M.bound.2 hl)]
          have : Ts.succ max (some li) = some (li + 1) := Ts.succ_ok (by omega)
          congr 1
          simp [tsOf, this, tokTs]
        | none =>
          simp only [Option.map_none]
          have hst := h.start
          have hcond : (Ts.isWhitespace c && Ts.trueOrNever (Ts.eq (some st.forward) (some st.start))) =
              (isWhitespace c && st.forward == st.start) := by
            rw [ws_eq, Ts.eq_ok, Ts.trueOrNever_some]
            rfl
          simp only [hcond]
          cases hw : (isWhitespace c && st.forward == st.start) with
          | true =>
            simp only [if_true]
            have := ih _ (h.ws hc hl)
            simp only [hl] at this
            rw [← this]
            have : Ts.succ max (some st.start) = some (st.start + 1) := Ts.succ_ok (by omega)
            congr 1
            simp [tsOf, this, hsucc]
          | false => simp [tsRes, tsOf]

/-! ## the Rust loop is the loop, on ASCII -/

/-- The Rust token of a piece. -/
def tokR (lx : Lex) (input : Str) (p : Nat × Nat × Nat) : Token :=
  match (lx.acceptOf p.2.2).bind fun a => mget a lx.tokens with
  | some d => ⟨d.name, if d.withVal then some ((input.drop p.1).take (p.2.1 + 1 - p.1)) else none⟩
  | none => ⟨[], none⟩

/-- The state of the Rust loop. -/
def rustOf (lx : Lex) (input : Str) (st : CState) : LState :=
  { toks := st.out.map (tokR lx input)
    state := st.state
    start := st.start
    forward := st.forward
    last := st.last.bind fun p => (lx.acceptOf p.2).map fun a => (p.1, a) }

theorem Made.accept_token (M : Made toks lx N acc al D s0) {s a : Nat} (hs : s < lx.dfa.states.length)
    (h : lx.acceptOf s = some a) : ∃ i q, toks[i]? = some q ∧ a = acc i ∧ mget a lx.tokens = some q.1 := by
  rw [M.built.spec.len] at hs
  have h0 : s ≠ 0 := by
    rintro rfl
    simp [Lex.acceptOf, M.accept, M.built.mget_accepting] at h
  rw [M.acceptOf h0 (List.getElem?_eq_getElem hs)] at h
  have := List.mem_of_head? h
  simp only [List.mem_filter, decide_eq_true_eq] at this
  obtain ⟨i, hi, rfl⟩ := (M.comb.accepting a).mp this.2
  exact ⟨i, toks[i], List.getElem?_eq_getElem hi, rfl, M.comb.mget (List.getElem?_eq_getElem hi)⟩

theorem slice_ascii {input : Str} (ha : ∀ c ∈ input, c.toNat < 128) {s l : Nat} (h1 : s ≤ l)
    (h2 : l < input.length) : byteSlice input s (l + 1) = .ok ((input.drop s).take (l + 1 - s)) := by
  have e : input = input.take s ++ ((input.drop s).take (l + 1 - s) ++ (input.drop s).drop (l + 1 - s)) := by
    rw [List.take_append_drop, List.take_append_drop]
  have h3 : (input.take s).length = s := by simp; omega
  have h4 : ((input.drop s).take (l + 1 - s)).length = l + 1 - s := by simp; omega
  have := byteSlice_ascii (pre := input.take s) (w := (input.drop s).take (l + 1 - s))
    (post := (input.drop s).drop (l + 1 - s)) (by
      intro c hc
      simp only [List.mem_append] at hc
      rcases hc with hc | hc
      · exact ha c (List.mem_of_mem_take hc)
      · exact ha c (List.mem_of_mem_drop (List.mem_of_mem_take hc)))
  rw [h3, h4, ← e, show s + (l + 1 - s) = l + 1 from by omega] at this
  exact this

theorem Made.makeTok (M : Made toks lx N acc al D s0) {input : Str} (ha : ∀ c ∈ input, c.toNat < 128)
    {p : Nat × Nat × Nat} (h1 : p.1 ≤ p.2.1) (h2 : p.2.1 < input.length)
    (h3 : p.2.2 < lx.dfa.states.length) {a : Nat} (h4 : lx.acceptOf p.2.2 = some a) :
    lx.makeTok input p.1 p.2.1 a = .ok (tokR lx input p) := by
  obtain ⟨i, q, _, _, hm⟩ := M.accept_token h3 h4
  simp only [Lex.makeTok, hm, tokR, h4, Option.bind_some, slice_ascii ha h1 h2]
  cases q.1.withVal <;> rfl

theorem Made.lexLoop (M : Made toks lx N acc al D s0) {input : Str} (ha : ∀ c ∈ input, c.toNat < 128) :
    ∀ (fuel : Nat) (st : CState), CInv lx input st →
    lexLoop lx input fuel (rustOf lx input st) =
      match cutLoop lx input fuel st with
      | none => .error .outOfFuel
      | some (st', _) => .ok (rustOf lx input st') := by
  intro fuel
  induction fuel with
  | zero =>
    intro st _
    unfold Lex.lexLoop cutLoop
    simp only [rustOf]
    cases hc : input[st.forward]? <;> rfl
  | succ fuel ih =>
    intro st h
    rw [cutLoop_step, lexLoop_step]
    simp only [rustOf]
    cases hc : input[st.forward]? with
    | none => rfl
    | some c =>
      simp only
      cases he : lx.dfa.findEdge st.state c with
      | some e =>
        simp only
        have h' := h.edge M.bound.1 hc he
        refine Eq.trans ?_ (ih _ h')
        congr 1
        simp only [rustOf]
        congr 1
        cases hq : lx.acceptOf e.dst <;> simp [hq]
      | none =>
        simp only
        cases hl : st.last with
        | some q =>
          obtain ⟨li, ls⟩ := q
          obtain ⟨h1, h2, h3, h4⟩ := h.last li ls hl
          obtain ⟨a, ha'⟩ := Option.isSome_iff_exists.mp h4
          have hlen := h.len
          have hmk := M.makeTok ha (p := (st.start, li, ls)) h1 (by simp only; omega) h3 ha'
          simp only at hmk
          simp only [Option.bind_some, ha', Option.map_some, hmk, bind, Except.bind]
          refine Eq.trans ?_ (ih _ (h.tok M.bound.2 hl))
          congr 1
          simp [rustOf]
        | none =>
          simp only [Option.bind_none]
          rcases Bool.eq_false_or_eq_true (isWhitespace c && st.forward == st.start) with hw | hw
          · simp only [hw, if_true]
            have := ih _ (h.ws hc hl)
            simp only [hl] at this
            refine Eq.trans ?_ this
            congr 1
          · simp [hw, hl]

end Lex
end Verif
