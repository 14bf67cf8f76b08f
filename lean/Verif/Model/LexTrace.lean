import Verif.Model.Lex
import Verif.Model.LexText

/-! # What the lexer prints (src/lex/lex.rs) -/

namespace Verif.Lex
open LexGen

/-- The numbers in what `lex` prints, from a state of its loop on (src/lex/lex.rs:167-219): both `println!` (187, 212) come before
`make_tok`, which may panic. -/
def places (lx : Lex) (input : Str) : Nat → LState → List (Nat × Nat)
  | fuel, st =>
    match input[st.forward]? with
    | none =>
      match st.last with
      | some (li, _) => [(st.start, li)]
      | none => []
    | some c =>
      match fuel with
      | 0 => []
      | fuel + 1 =>
        match lx.dfa.findEdge st.state c with
        | some e =>
          places lx input fuel
            { st with
              last := match lx.acceptOf e.dst with
                      | some a => some (st.forward, a)
                      | none => st.last
              state := e.dst
              forward := st.forward + 1 }
        | none =>
          match st.last with
          | some (li, la) => (st.start, li) ::
            match lx.makeTok input st.start li la with
            | .error _ => []
            | .ok tok => places lx input fuel
                { toks := st.toks ++ [tok], state := 0, start := li + 1, forward := li + 1, last := none }
          | none =>
            if isWhitespace c && st.forward == st.start then
              places lx input fuel { st with forward := st.forward + 1, start := st.start + 1 }
            else []

/-- One `println!` of `lex` (src/lex/lex.rs:187, 212), without the line break. -/
def placeText (p : Nat × Nat) : Str := "LEXEME_BEGIN: ".toList ++ digits p.1 ++ " FORWARD: ".toList ++ digits p.2

/-- What `lex` prints (src/lex/lex.rs:157-222), one text for each `println!`. -/
def lexPrinted (lx : Lex) (input : Str) : List Str := (places lx input (lexFuel input) ⟨[], 0, 0, 0, none⟩).map placeText

end Verif.Lex
