import Verif.Model.Prelude

/-! # src/parser/support.rs

The functions that turn source text into the strings of the AST. -/

namespace Verif.Support

/-- `alloc_str` (src/parser/support.rs:14-16). -/
def allocStr (s : Str) : Str := s

/-- `alloc_quoted_str` (src/parser/support.rs:18-25); `count() - 2` underflows for
text of less than two characters. -/
def allocQuotedStr (s : Str) : Res Str :=
  if s.length < 2 then .error .underflow else .ok ((s.drop 1).take (s.length - 2))

/-- `alloc_ts_code` (src/parser/support.rs:27-35). -/
def allocTsCode (s : Str) : Res Str :=
  if s.length < 2 then .error .underflow else .ok ((s.drop 1).take (s.length - 2))

/-- `alloc_regex` (src/parser/support.rs:37-49); `len()` (38) is the length in bytes. -/
def allocRegex (s : Str) : Res Str :=
  if (s.map Char.utf8Size).sum < 3 then .ok []
  else if s.length < 2 then .error .underflow
  else .ok ((s.drop 1).take (s.length - 2))

end Verif.Support
