import Verif.Model.Nfa

/-! # src/parser/grammar.lalrpop

The terminals of grammar files that carry text. -/

namespace Verif.GrammarFile

/-- `\\\\|\\"|[^"\\]`, the items of a quoted text (src/parser/grammar.lalrpop:41,42). -/
def quotedItem : Hir :=
  .alt [.concat [.lit 92, .lit 92], .concat [.lit 92, .lit 34], .cls [(0, 33), (35, 91), (93, 0x10FFFF)]]

/-- `"(\\\\|\\"|[^"\\])*"` (src/parser/grammar.lalrpop:41,42). -/
def quoted : Hir := .concat [.lit 34, .rep .zeroOrMore (.group quotedItem), .lit 34]

/-- `\(.*\)` (src/parser/grammar.lalrpop:51). -/
def tsCode : Hir := .concat [.lit 40, .rep .zeroOrMore (.cls [(0, 9), (11, 0x10FFFF)]), .lit 41]

/-- `[_A-Za-z][_A-Za-z0-9]*` (src/parser/grammar.lalrpop:47). -/
def ident : Hir :=
  .concat [.cls [(65, 90), (95, 95), (97, 122)], .rep .zeroOrMore (.cls [(48, 57), (65, 90), (95, 95), (97, 122)])]

end Verif.GrammarFile
