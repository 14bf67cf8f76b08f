import Verif.Model.Prelude

/-! # The text of chars.ts in the repository -/

namespace Verif.Tests.RepoChars
open Verif

/-- A line, as a list of characters. -/
local macro "line!" s:str : term => do
  let cs := (s.getString ++ "\n").toList.map fun c => Lean.Syntax.mkCharLit c
  `(([$(cs.toArray),*] : Verif.Str))

/-- A last line without end. -/
local macro "chars!" s:str : term => do
  let cs := s.getString.toList.map fun c => Lean.Syntax.mkCharLit c
  `(([$(cs.toArray),*] : Verif.Str))

/-- chars.ts:1-248. -/
def charsText : List Str := [
  line! "type Characters = [",
  line! "\"\u0000\",",
  line! "\"\u0001\",",
  line! "\"\u0002\",",
  line! "\"\u0003\",",
  line! "\"\u0004\",",
  line! "\"\u0005\",",
  line! "\"\u0006\",",
  line! "\"\u0007\",",
  line! "\"\u0008\",",
  line! "\"\u000e\",",
  line! "\"\u000f\",",
  line! "\"\u0010\",",
  line! "\"\u0011\",",
  line! "\"\u0012\",",
  line! "\"\u0013\",",
  line! "\"\u0014\",",
  line! "\"\u0015\",",
  line! "\"\u0016\",",
  line! "\"\u0017\",",
  line! "\"\u0018\",",
  line! "\"\u0019\",",
  line! "\"\u001a\",",
  line! "\"\u001b\",",
  line! "\"\u001c\",",
  line! "\"\u001d\",",
  line! "\"\u001e\",",
  line! "\"\u001f\",",
  line! "\"!\",",
  line! "\"\\\"\",",
  line! "\"#\",",
  line! "\"$\",",
  line! "\"%\",",
  line! "\"&\",",
  line! "\"'\",",
  line! "\"(\",",
  line! "\")\",",
  line! "\"*\",",
  line! "\"+\",",
  line! "\",\",",
  line! "\"-\",",
  line! "\".\",",
  line! "\"/\",",
  line! "\"0\",",
  line! "\"1\",",
  line! "\"2\",",
  line! "\"3\",",
  line! "\"4\",",
  line! "\"5\",",
  line! "\"6\",",
  line! "\"7\",",
  line! "\"8\",",
  line! "\"9\",",
  line! "\":\",",
  line! "\";\",",
  line! "\"<\",",
  line! "\"=\",",
  line! "\">\",",
  line! "\"?\",",
  line! "\"@\",",
  line! "\"A\",",
  line! "\"B\",",
  line! "\"C\",",
  line! "\"D\",",
  line! "\"E\",",
  line! "\"F\",",
  line! "\"G\",",
  line! "\"H\",",
  line! "\"I\",",
  line! "\"J\",",
  line! "\"K\",",
  line! "\"L\",",
  line! "\"M\",",
  line! "\"N\",",
  line! "\"O\",",
  line! "\"P\",",
  line! "\"Q\",",
  line! "\"R\",",
  line! "\"S\",",
  line! "\"T\",",
  line! "\"U\",",
  line! "\"V\",",
  line! "\"W\",",
  line! "\"X\",",
  line! "\"Y\",",
  line! "\"Z\",",
  line! "\"[\",",
  line! "\"\\\\\",",
  line! "\"]\",",
  line! "\"^\",",
  line! "\"_\",",
  line! "\"`\",",
  line! "\"a\",",
  line! "\"b\",",
  line! "\"c\",",
  line! "\"d\",",
  line! "\"e\",",
  line! "\"f\",",
  line! "\"g\",",
  line! "\"h\",",
  line! "\"i\",",
  line! "\"j\",",
  line! "\"k\",",
  line! "\"l\",",
  line! "\"m\",",
  line! "\"n\",",
  line! "\"o\",",
  line! "\"p\",",
  line! "\"q\",",
  line! "\"r\",",
  line! "\"s\",",
  line! "\"t\",",
  line! "\"u\",",
  line! "\"v\",",
  line! "\"w\",",
  line! "\"x\",",
  line! "\"y\",",
  line! "\"z\",",
  line! "\"{\",",
  line! "\"|\",",
  line! "\"}\",",
  line! "\"~\",",
  line! "\"\u0080\",",
  line! "\"\u0081\",",
  line! "\"\u0082\",",
  line! "\"\u0083\",",
  line! "\"\u0084\",",
  line! "\"\u0085\",",
  line! "\"\u0086\",",
  line! "\"\u0087\",",
  line! "\"\u0088\",",
  line! "\"\u0089\",",
  line! "\"\u008a\",",
  line! "\"\u008b\",",
  line! "\"\u008c\",",
  line! "\"\u008d\",",
  line! "\"\u008e\",",
  line! "\"\u008f\",",
  line! "\"\u0090\",",
  line! "\"\u0091\",",
  line! "\"\u0092\",",
  line! "\"\u0093\",",
  line! "\"\u0094\",",
  line! "\"\u0095\",",
  line! "\"\u0096\",",
  line! "\"\u0097\",",
  line! "\"\u0098\",",
  line! "\"\u0099\",",
  line! "\"\u009a\",",
  line! "\"\u009b\",",
  line! "\"\u009c\",",
  line! "\"\u009d\",",
  line! "\"\u009e\",",
  line! "\"\u009f\",",
  line! "\"\u00a1\",",
  line! "\"\u00a2\",",
  line! "\"\u00a3\",",
  line! "\"\u00a4\",",
  line! "\"\u00a5\",",
  line! "\"\u00a6\",",
  line! "\"\u00a7\",",
  line! "\"\u00a8\",",
  line! "\"\u00a9\",",
  line! "\"\u00aa\",",
  line! "\"\u00ab\",",
  line! "\"\u00ac\",",
  line! "\"\u00ae\",",
  line! "\"\u00af\",",
  line! "\"\u00b0\",",
  line! "\"\u00b1\",",
  line! "\"\u00b2\",",
  line! "\"\u00b3\",",
  line! "\"\u00b4\",",
  line! "\"\u00b5\",",
  line! "\"\u00b6\",",
  line! "\"\u00b7\",",
  line! "\"\u00b8\",",
  line! "\"\u00b9\",",
  line! "\"\u00ba\",",
  line! "\"\u00bb\",",
  line! "\"\u00bc\",",
  line! "\"\u00bd\",",
  line! "\"\u00be\",",
  line! "\"\u00bf\",",
  line! "\"\u00c0\",",
  line! "\"\u00c1\",",
  line! "\"\u00c2\",",
  line! "\"\u00c3\",",
  line! "\"\u00c4\",",
  line! "\"\u00c5\",",
  line! "\"\u00c6\",",
  line! "\"\u00c7\",",
  line! "\"\u00c8\",",
  line! "\"\u00c9\",",
  line! "\"\u00ca\",",
  line! "\"\u00cb\",",
  line! "\"\u00cc\",",
  line! "\"\u00cd\",",
  line! "\"\u00ce\",",
  line! "\"\u00cf\",",
  line! "\"\u00d0\",",
  line! "\"\u00d1\",",
  line! "\"\u00d2\",",
  line! "\"\u00d3\",",
  line! "\"\u00d4\",",
  line! "\"\u00d5\",",
  line! "\"\u00d6\",",
  line! "\"\u00d7\",",
  line! "\"\u00d8\",",
  line! "\"\u00d9\",",
  line! "\"\u00da\",",
  line! "\"\u00db\",",
  line! "\"\u00dc\",",
  line! "\"\u00dd\",",
  line! "\"\u00de\",",
  line! "\"\u00df\",",
  line! "\"\u00e0\",",
  line! "\"\u00e1\",",
  line! "\"\u00e2\",",
  line! "\"\u00e3\",",
  line! "\"\u00e4\",",
  line! "\"\u00e5\",",
  line! "\"\u00e6\",",
  line! "\"\u00e7\",",
  line! "\"\u00e8\",",
  line! "\"\u00e9\",",
  line! "\"\u00ea\",",
  line! "\"\u00eb\",",
  line! "\"\u00ec\",",
  line! "\"\u00ed\",",
  line! "\"\u00ee\",",
  line! "\"\u00ef\",",
  line! "\"\u00f0\",",
  line! "\"\u00f1\",",
  line! "\"\u00f2\",",
  line! "\"\u00f3\",",
  line! "\"\u00f4\",",
  line! "\"\u00f5\",",
  line! "\"\u00f6\",",
  line! "\"\u00f7\",",
  line! "\"\u00f8\",",
  line! "\"\u00f9\",",
  line! "\"\u00fa\",",
  line! "\"\u00fb\",",
  line! "\"\u00fc\",",
  line! "\"\u00fd\",",
  line! "\"\u00fe\",",
  chars! "\"\u00ff\",]"]

end Verif.Tests.RepoChars
