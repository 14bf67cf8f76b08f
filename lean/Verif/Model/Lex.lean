import Verif.Model.Dfa

/-! # src/lex/lex.rs -/

namespace Verif

/-- `TokenDef` (src/lex/lex.rs:11-16). -/
structure TokenDef where
  name : Str
  withVal : Bool
  tokenIdx : Option Nat
deriving DecidableEq, Repr

/-- `Token` (src/lex/lex.rs:27-31). -/
structure Token where
  name : Str
  val : Option Str
deriving DecidableEq, Repr

/-- `Lex` (src/lex/lex.rs:46-52). -/
structure Lex where
  dfa : Dfa
  tokens : List (Nat × TokenDef)
  acceptingDfaToNfa : List (Nat × List Nat)
deriving DecidableEq, Repr

namespace Lex

/-- `.map(|(tok, regex)| (tok, NFA::from_regex(&regex)))` (src/lex/lex.rs:71-74). -/
def buildNfas : List (TokenDef × Hir) → Res (List (TokenDef × Nfa))
  | [] => .ok []
  | (t, h) :: rest => do
    let n ← Nfa.fromRegex h
    let ns ← buildNfas rest
    return (t, n) :: ns

/-- The loop src/lex/lex.rs:88-96: registers accepting states and shifts. -/
def shiftLoop : Nat → Nat → List (TokenDef × Nfa) → List (Nat × TokenDef) →
    List Nfa × List (Nat × TokenDef)
  | _, _, [], m => ([], m)
  | so, eo, (t, n) :: rest, m =>
    let m := n.acceptingStates.foldl (fun m a => minsert (a + so) t m) m
    let n' := n.shift so eo
    let (ns, m) := shiftLoop (so + n'.states.length) (eo + n'.edges.length) rest m
    (n' :: ns, m)

/-- The loop src/lex/lex.rs:98-105. -/
def appendAll (base : Nfa) (ns : List Nfa) : Nfa :=
  ns.foldl (fun b n => { edges := b.edges ++ n.edges, states := b.states ++ n.states }) base

/-- The combined automaton and token map of `from_tokens` (src/lex/lex.rs:76-105). -/
def combine (ns : List (TokenDef × Nfa)) : Nfa × List (Nat × TokenDef) :=
  let tmpl := Nfa.template (ns.map fun p => p.2.states.length)
  let (shifted, m) := shiftLoop 1 ns.length ns []
  (appendAll tmpl shifted, m)

/-- `Lex::from_tokens` (src/lex/lex.rs:70-114). -/
def fromTokens (ord : Nfa.Order) (toks : List (TokenDef × Hir)) : Res Lex := do
  let ns ← buildNfas toks
  let (nfa, m) := combine ns
  let dfa ← Dfa.fromNfa nfa ord
  return { dfa := dfa, tokens := m, acceptingDfaToNfa := dfa.acceptingStates }

/-- `is_whitespace` (src/lex/lex.rs:150-155). -/
def isWhitespace (c : Char) : Bool := c == '\n' || c == ' '

/-- First half of a byte slice `&s[b..]` (src/lex/lex.rs:238): `none` when `b` is
not a char boundary or out of range. -/
def dropBytes : Str → Nat → Option Str
  | s, 0 => some s
  | [], _ + 1 => none
  | c :: s, b + 1 => if c.utf8Size ≤ b + 1 then dropBytes s (b + 1 - c.utf8Size) else none

/-- Second half of a byte slice `&s[..b]` (src/lex/lex.rs:238). -/
def takeBytes : Str → Nat → Option Str
  | _, 0 => some []
  | [], _ + 1 => none
  | c :: s, b + 1 =>
    if c.utf8Size ≤ b + 1 then (takeBytes s (b + 1 - c.utf8Size)).map (c :: ·) else none

/-- `input[start..end]` on `&str` (src/lex/lex.rs:238): panics unless both ends
are char boundaries with `start ≤ end ≤ len`. -/
def byteSlice (s : Str) (start stop : Nat) : Res Str :=
  if start ≤ stop then
    match (dropBytes s start).bind fun t => takeBytes t (stop - start) with
    | some v => .ok v
    | none => .error .charBoundary
  else .error .charBoundary

/-- `make_tok` (src/lex/lex.rs:224-250); `last` is inclusive. -/
def makeTok (lx : Lex) (input : Str) (start last : Nat) (accState : Nat) : Res Token :=
  match mget accState lx.tokens with
  | some d =>
    if d.withVal then do
      let v ← byteSlice input start (last + 1)
      return ⟨d.name, some v⟩
    else .ok ⟨d.name, none⟩
  | none => .error .noTokenDef

/-- Local variables of `lex` (src/lex/lex.rs:159-165). -/
structure LState where
  toks : List Token
  state : Nat
  start : Nat
  forward : Nat
  last : Option (Nat × Nat)
deriving DecidableEq, Repr

/-- `*nfa_set.first().unwrap()` for the entry of `accepting_dfa_to_nfa`
(src/lex/lex.rs:177-178). -/
def acceptOf (lx : Lex) (dst : Nat) : Option Nat :=
  match mget dst lx.acceptingDfaToNfa with
  | some (a :: _) => some a
  | _ => none

/-- The `while` loop of `lex` (src/lex/lex.rs:167-209).  Output tokens are
accumulated in order.  Returns the state at loop exit. -/
def lexLoop (lx : Lex) (input : Str) : Nat → LState → Res LState
  | fuel, st =>
    match input[st.forward]? with
    | none => .ok st
    | some c =>
      match fuel with
      | 0 => .error .outOfFuel
      | fuel + 1 =>
        match lx.dfa.findEdge st.state c with
        | some e =>
          lexLoop lx input fuel
            { st with
              last := match lx.acceptOf e.dst with
                      | some a => some (st.forward, a)
                      | none => st.last
              state := e.dst
              forward := st.forward + 1 }
        | none =>
          match st.last with
          | some (li, la) => do
            let tok ← lx.makeTok input st.start li la
            lexLoop lx input fuel
              { toks := st.toks ++ [tok], state := 0, start := li + 1, forward := li + 1, last := none }
          | none =>
            if isWhitespace c && st.forward == st.start then
              lexLoop lx input fuel { st with forward := st.forward + 1, start := st.start + 1 }
            else .ok st

/-- Iterations sufficient for `lexLoop` (src/lex/lex.rs:167-209): each token
attempt restarts after at least one consumed character and scans at most the
rest of the input. -/
def lexFuel (input : Str) : Nat := (input.length + 1) * (input.length + 2)

/-- `lex` (src/lex/lex.rs:157-222). -/
def lex (lx : Lex) (input : Str) : Res (List Token) := do
  let st ← lexLoop lx input (lexFuel input) ⟨[], 0, 0, 0, none⟩
  match st.last with
  | some (li, la) => do
    let tok ← lx.makeTok input st.start li la
    return st.toks ++ [tok]
  | none => return st.toks

/-- `matches` (src/lex/lex.rs:252-265), which nothing calls.  `Err(())` is `.error ()`; the `OptionUsize` of the
result is an `Option` (a state is not `usize::MAX`). -/
def step (lx : Lex) (state : Nat) (c : Char) : Except Unit (Option Nat) :=
  match (lx.dfa.states[state]?).bind id with
  | none => .ok none
  | some _ =>
    match lx.dfa.findEdge state c with
    | some e => .ok (some e.dst)
    | none => if isWhitespace c then .ok none else .error ()

/-- `def_map` of `convert_tokens` (src/lex/lex.rs:126-132): by name, later states
overwrite earlier ones. -/
def defMap (lx : Lex) : List (Str × TokenDef) :=
  lx.tokens.foldl (fun m p => minsert p.2.name p.2 m) []

/-- `token_with_idx` (src/lex/lex.rs:140-147). -/
def tokenWithIdx (m : List (Str × TokenDef)) (t : Token) : Res (Token × Nat) :=
  match mget t.name m with
  | none => .error .unwrapNone
  | some d =>
    match d.tokenIdx with
    | none => .error .unwrapNone
    | some i => .ok (t, i)

/-- `.map(|token| self.token_with_idx(token, &def_map))` (src/lex/lex.rs:133-135). -/
def convertLoop (m : List (Str × TokenDef)) : List Token → Res (List (Token × Nat))
  | [] => .ok []
  | t :: ts => do
    let p ← tokenWithIdx m t
    let ps ← convertLoop m ts
    return p :: ps

/-- `Grammar::EOF_TOKEN_IDX` (src/parser/mod.rs:55). -/
def EOF_IDX : Nat := 0

/-- `convert_tokens` (src/lex/lex.rs:125-138). -/
def convertTokens (lx : Lex) (ts : List Token) : Res (List (Token × Nat)) := do
  let ps ← convertLoop lx.defMap ts
  return ps ++ [(⟨"EOF".toList, none⟩, EOF_IDX)]

end Lex
end Verif
