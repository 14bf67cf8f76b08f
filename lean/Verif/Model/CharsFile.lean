import Verif.Model.Show

/-! # Printing of ranges, and the file chars.ts

The file chars.ts at the top of the repository is written by the test `lol` of src/lex/nfa.rs. -/

namespace Verif

/-- `char_code as u8 as char` (src/lex/nfa.rs:533,677). -/
def byteChar (n : Nat) : Char := Char.ofNat (n % 256)

/-- `Match::range_to_string` (src/lex/nfa.rs:529-540); `len` of a range that ends before it starts is 0. -/
def Match.rangeToString (m : Match) : Str :=
  ((List.range' m.lo (m.hi - m.lo)).take 256).map byteChar ++
    if m.hi - m.lo > 256 then " (rest omitted)".toList else []

/-- `Debug for Match` (src/lex/nfa.rs:477-484), with `{:?}`.  Simplification: escapes as in `Show.quoted`. -/
def Match.debug (m : Match) : Str :=
  "Match { range: ".toList ++ LexGen.digits m.lo ++ "..".toList ++ LexGen.digits m.hi ++
    ", (pretty range): ".toList ++ Show.quoted m.rangeToString ++ " }".toList

namespace CharsFile

/-- `invisible_codepoints` (src/lex/nfa.rs:690-733), as first element and number of elements of each run. -/
def invisibleRuns : List (Nat × Nat) :=
  [(9, 5), (32, 1), (127, 1), (160, 1), (173, 1), (847, 1), (1564, 1), (4447, 2), (6068, 2), (6155, 4), (7355, 2),
    (8192, 16), (8234, 6), (8287, 17), (10240, 1), (12288, 1), (12644, 1), (65024, 16), (65279, 1), (65440, 1),
    (65520, 9), (65532, 1), (78844, 1), (119155, 8), (917504, 128), (917760, 240)]

/-- `invisible_codepoints` (src/lex/nfa.rs:690-733). -/
def invisible : List Nat := invisibleRuns.flatMap fun r => List.range' r.1 r.2

/-- `range_to_string` of the test (src/lex/nfa.rs:673-681). -/
def rangeToString (m : Match) : Str := (List.range' m.lo (m.hi - m.lo)).map byteChar

/-- `char_set` (src/lex/nfa.rs:735-743), as numbers of characters. -/
def charSet (rs : List Match) : List Nat :=
  (rs.flatMap rangeToString).foldl (fun s c => if invisible.contains c.toNat then s else oinsert c.toNat s) []

/-- The text of a character (src/lex/nfa.rs:748-754). -/
def escape (c : Char) : Str := if c = '"' then ['\\', '"'] else if c = '\\' then ['\\', '\\'] else [c]

/-- `final_str` (src/lex/nfa.rs:688, 745-758) for the ranges of a class. -/
def text (rs : List Match) : Str :=
  "type Characters = [".toList ++
    (charSet rs).flatMap (fun n => ['\n', '"'] ++ escape (Char.ofNat n) ++ ['"', ',']) ++ [']']

/-- The ranges that `regex-syntax` gives for `.` (src/lex/nfa.rs:662-671): everything but a line feed. -/
def dot : List Match := [⟨0, 10⟩, ⟨11, 0x110000⟩]

end CharsFile
end Verif
