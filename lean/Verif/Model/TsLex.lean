import Verif.Model.TsUtil
import Verif.Model.LexGen

/-! # ts/lex.ts

`max` is the size of the arithmetic tables, `code` the character table.  Results
that only arise outside the arithmetic tables (indexing with `never`) are lumped
together as `never`. -/

namespace Verif.Ts

open LexGen (Tables State)

/-- `Token` (ts/lex.ts:27-30). -/
structure Tok where
  kind : Str
  value : Option Text
deriving DecidableEq, Repr

/-- `GetTokenDefImpl` (ts/lex.ts:37-46): the first listed NFA state that has a
token; `none` is `undefined`. -/
def getTokenDefImpl (T : Tables) : List Nat → Option (Str × Bool)
  | [] => none
  | x :: rest =>
    match mget x T.tokens with
    | some d => some d
    | none => getTokenDefImpl T rest

/-- `GetTokenDef` (ts/lex.ts:32-35); `none` also stands for the error string. -/
def getTokenDef (T : Tables) (s : Nat) : Option (Str × Bool) :=
  match mget s T.dfaToNfa with
  | some l => getTokenDefImpl T l
  | none => none

/-- `TokenDefToToken` (ts/lex.ts:48-62); `none` is `never`. -/
def tokenDefToToken (max : Nat) (T : Tables) (s : Nat) (input : Str) (lexemeBegin forward : Option Nat) :
    Option Tok :=
  match getTokenDef T s with
  | some (kind, hasValue) =>
    if hasValue then some ⟨kind, some (substring max input lexemeBegin (succ max forward))⟩
    else some ⟨kind, none⟩
  | none => none

/-- `X extends true` inside a tuple, where `never` also extends `true`
(ts/lex.ts:64-69, 144-147). -/
def trueOrNever (b : Option Bool) : Bool := decide (b ≠ some false)

/-- `RangeContains` (ts/lex.ts:64-69). -/
def rangeContains (max : Nat) (r : Nat × Nat) (label : Nat) : Bool :=
  trueOrNever (gte max (some label) (some r.1)) && trueOrNever (lt max (some label) (some r.2))

/-- Result of `NextState` (ts/lex.ts:71-81). -/
inductive Next where
  | state (n : Nat)
  | undefined
  | never
deriving DecidableEq, Repr

/-- Termination of `nextState` (ts/util.ts:53). -/
theorem succ_lt (max n len : Nat) (h : n < len) :
    (match succ max (some n) with | none => 0 | some m => len + 1 - m) < len + 1 - n := by
  simp only [succ, succTable]
  have : ∀ l : List Nat, mget n (l.map fun i => (i, i + 1)) = none ∨
      mget n (l.map fun i => (i, i + 1)) = some (n + 1) := by
    intro l
    induction l with
    | nil => simp [mget]
    | cons i l ih =>
      simp only [List.map_cons, mget]
      by_cases h : n = i
      · rw [if_pos h, h]; simp
      · rw [if_neg h]; exact ih
  rcases this (List.range max) with h' | h' <;> rw [h'] <;> simp <;> omega

/-- `NextState` (ts/lex.ts:71-81). -/
def nextState (max : Nat) (label : Nat) (st : State) (i : Option Nat) : Next :=
  match i with
  | none => .never
  | some n =>
    if h : n < st.labels.length then
      if rangeContains max st.labels[n] label then
        match st.to[n]? with
        | some t => .state t
        | none => .undefined
      else nextState max label st (succ max (some n))
    else .undefined
termination_by match i with | none => 0 | some n => st.labels.length + 1 - n
decreasing_by exact succ_lt max n _ h

/-- `StringToCharList` (ts/lex.ts:87-96) before the final `Reverse`; `none` is the
string `invalid char: ..`. -/
def charList (code : Char → Option Nat) : Str → List Char → Option (List Char)
  | [], ret => some (reverse ret)
  | c :: rest, ret =>
    match code c with
    | some _ => charList code rest (c :: ret)
    | none => none

/-- Arguments of `LexImpl` that change (ts/lex.ts:98-107): `stateIdx`, `tokens`
(last token first), `lexemeBegin`, `forward`, `lastAcceptingState`. -/
structure LexState where
  state : Nat
  tokens : List (Option Tok)
  lexemeBegin : Option Nat
  forward : Option Nat
  last : Option (Option Nat × Nat)
deriving DecidableEq, Repr

/-- Result of `LexImpl` (ts/lex.ts:98-176): the tuple, one of the strings, or a
result outside the arithmetic tables. -/
inductive LexRes where
  | tuple (tokens : List (Option Tok)) (last : Option (Option Nat × Nat)) (lexemeBegin : Option Nat)
      (error : Option (Char × Option Nat))
  | string
  | never
  | outOfFuel
deriving DecidableEq, Repr

/-- `LexImpl` (ts/lex.ts:98-176).  `charBuf` is never used and left out.
`fuel` bounds the number of instantiations. -/
def lexImpl (max : Nat) (code : Char → Option Nat) (T : Tables) (inputStr : Str) (full : List Char) :
    Nat → LexState → LexRes
  | fuel, st =>
    match st.forward with
    | none => .never
    | some f =>
      match full[f]? with
      | none => .tuple st.tokens st.last st.lexemeBegin none
      | some c =>
        match fuel with
        | 0 => .outOfFuel
        | fuel + 1 =>
          match code c with
          | none => .string
          | some label =>
            let next := match T.states[st.state]? with
              | some s => nextState max label s (some 0)
              | none => .undefined
            match next with
            | .never => .never
            | .state n =>
              lexImpl max code T inputStr full fuel
                { st with
                  state := n
                  forward := succ max (some f)
                  last := match T.states[n]? with
                    | some s => if s.accepting then some (some f, n) else st.last
                    | none => st.last }
            | .undefined =>
              match st.last with
              | some (lf, ls) =>
                match mget ls T.dfaToNfa with
                | some _ =>
                  lexImpl max code T inputStr full fuel
                    { state := 0
                      tokens := tokenDefToToken max T ls inputStr st.lexemeBegin lf :: st.tokens
                      lexemeBegin := succ max lf
                      forward := succ max lf
                      last := none }
                | none => .string
              | none =>
                if isWhitespace c && trueOrNever (eq (some f) st.lexemeBegin) then
                  lexImpl max code T inputStr full fuel
                    { st with lexemeBegin := succ max st.lexemeBegin, forward := succ max (some f) }
                else .tuple st.tokens none st.lexemeBegin (some (c, some f))

/-- Result of `Lex` (ts/lex.ts:178-218). -/
inductive LexOut where
  /-- the list of tokens -/
  | tokens (l : List (Option Tok))
  /-- `` invalid symbol: `c` at index i `` -/
  | invalidSymbol (c : Char) (i : Option Nat)
  /-- one of the `unreachable: ..` strings; in particular the result for an input
  with an unsupported character, since `LexImpl` then returns a string -/
  | unreachable
  | never
  | outOfFuel
deriving DecidableEq, Repr

/-- `Lex` (ts/lex.ts:178-218).  `StringToCharList` returning a string (unsupported
character) makes `fullInput[forward]` the type `string`, and `LexImpl` returns a
string. -/
def lex (max : Nat) (code : Char → Option Nat) (T : Tables) (fuel : Nat) (input : Str) : LexOut :=
  match charList code input [] with
  | none => .unreachable
  | some full =>
    match lexImpl max code T input full fuel ⟨0, [], some 0, some 0, none⟩ with
    | .string => .unreachable
    | .never => .never
    | .outOfFuel => .outOfFuel
    | .tuple tokens last lexemeBegin error =>
      match error with
      | some (c, i) => .invalidSymbol c i
      | none =>
        match last with
        | some (lf, ls) =>
          .tokens (reverse (some ⟨"EOF".toList, none⟩ ::
            tokenDefToToken max T ls input lexemeBegin lf :: tokens))
        | none => .tokens (reverse (some ⟨"EOF".toList, none⟩ :: tokens))

end Verif.Ts
