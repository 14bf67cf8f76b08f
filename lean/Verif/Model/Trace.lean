import Verif.Model.Report
import Verif.Model.Show

/-! # What the parser prints (src/lalr.rs)

The `println!` of the loop of `parse_impl` and the message of its panic.  Each element of a list is what one `println!`
prints, without the line break at its end.  Left out: what is printed before the loop (src/lalr.rs:75-87), the derived `Debug` of the
productions, the tokens and the tables. -/

namespace Verif.Trace
open Lalr LexGen

/-- `Debug` of a vector (used at src/lalr.rs:93, 135, 149-151). -/
def list (es : List Str) : Str := ['['] ++ join [',', ' '] es ++ [']']

/-- The vector of states, the model keeps the top first (src/lalr.rs:53, 93, 135). -/
def stack (st : List Nat) : Str := list (st.reverse.map digits)

/-- The derived `Debug` of `Token` (src/lex/lex.rs:27-31); escapes as in `Show.quoted`. -/
def token (t : Token) : Str :=
  "Token { name: ".toList ++ Show.quoted t.name ++ ", val: ".toList ++
    (match t.val with
      | none => "None".toList
      | some v => "Some(".toList ++ Show.quoted v ++ [')']) ++ " }".toList

/-- The first two `println!` of an iteration (src/lalr.rs:93-94); `tok` is the variable `a`. -/
def head (tok : Token) (s : Nat) (st : PState) : List Str :=
  ["STACK: ".toList ++ stack st.stack,
    "S=".toList ++ digits s ++ " TOKEN TokenIdx(".toList ++ digits st.a ++ "): ".toList ++ token tok ++ " i=".toList ++ digits st.i]

/-- What one iteration prints (src/lalr.rs:90-145), up to the panic if there is one. -/
def printed (l : Lalr) (tok : Token) (st : PState) : List Str :=
  match st.stack with
  | [] => []
  | s :: _ => head tok s st ++
    match l.action.tryIndex s st.a with
    | some (.shift j) => ["  shifting ".toList ++ digits j]
    | some (.reduce p) =>
      match l.grammar.prods[p]? with
      | none => []
      | some prod =>
        if st.stack.length < prod.inputs.length then []
        else ("  reducing by ".toList ++ Show.production prod) ::
          match st.stack.drop prod.inputs.length with
          | [] => []
          | t :: rest =>
            match l.goto.tryIndex t prod.name with
            | none => []
            | some j => ["  pushing (".toList ++ digits j ++ ") => STACK: ".toList ++ stack (j :: t :: rest)]
    | some .accept => ["Accepting!".toList]
    | none => []

/-- The message of the panic for an invalid token (src/lalr.rs:147-153). -/
def complaint (l : Lalr) (tok : Token) (st : PState) : Str :=
  "Invalid token: ".toList ++ token tok ++ "\nValid: ".toList ++
    match Lalr.reported l.action st with
    | none => "None".toList
    | some ks => "Some(".toList ++ list (ks.map (Show.token l.grammar)) ++ [')']

/-- The variable `a` after an iteration: `next_token` (src/lalr.rs:62-73) is called when a token is shifted. -/
def nextTok (toks : List (Token × Nat)) (tok : Token) (st st' : PState) : Token :=
  if st'.i = st.i then tok else ((toks[st'.i]?).map Prod.fst).getD tok

/-- The loop of `parse_impl` (src/lalr.rs:89-157), `n` is `loop_count`: what is printed, and the message if it panics because of
an invalid token. -/
def loop (l : Lalr) (toks : List (Token × Nat)) : Nat → Nat → Token → PState → List Str × Option Str
  | 0, _, _, _ => ([], none)
  | fuel + 1, n, tok, st =>
    match Lalr.step l.grammar l.action l.goto (toks.map Prod.snd) st with
    | .error .invalidToken => (printed l tok st, some (complaint l tok st))
    | .error _ => (printed l tok st, none)
    | .ok none => (printed l tok st ++ ["LOOP COUNT: ".toList ++ digits (n + 1)], none)
    | .ok (some st') =>
      let r := loop l toks fuel (n + 1) (nextTok toks tok st st') st'
      (printed l tok st ++ r.1, r.2)

/-- `parse_impl` (src/lalr.rs:51-159): what its loop prints, and the message of its panic. -/
def parse (l : Lalr) (fuel : Nat) (toks : List (Token × Nat)) : List Str × Option Str :=
  match toks with
  | [] => ([], none)
  | (t, a) :: _ => loop l toks fuel 0 t ⟨[0], 0, a, []⟩

end Verif.Trace
