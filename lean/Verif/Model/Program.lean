import Verif.Model.FrontEnd
import Verif.Model.ParseText
import Verif.Model.LexText

/-! # The program as a whole

src/main.rs is empty: the steps from a grammar to the generated files are those of the tests in
src/codegen/parse_gen.rs. -/

namespace Verif

/-- `parse_gen::generate` (src/codegen/parse_gen.rs:603-611): the text of the lexer states and that
of the parser states.  Simplification: the two texts cannot fail to be written
(`std::fmt::Error` does not occur when writing to a `String`). -/
def generateFiles (ps : List Ast.Prod) (l : Lalr) : Res (Str × Str) := do
  let T ← ParseGen.generate ps l
  return ((LexGen.Tables.new l.lexer).text, ParseGen.fileText ps l T)

/-- The steps of the tests (src/codegen/parse_gen.rs:634-642, 731-739): read the grammar
(src/lib.rs:9-18), number it, build the parser, write the two files. -/
def compile {H : Type} [DecidableEq H] (hash : List Item → H) (rx : Str → Option Hir) (ord : Nfa.Order)
    (text : Str) : Res (Str × Str) := do
  let ps ← FrontEnd.parseGrammar text
  let g ← Grammar.fromAst ps
  let l ← Lalr.new hash rx ord g
  generateFiles ps l

end Verif
