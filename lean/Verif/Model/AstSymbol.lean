import Verif.Model.Grammar

/-! # The other methods of `InputSymbol` (src/parser/ast.rs) and `Symbol` (src/parser/mod.rs)

No other function of the crate calls them. -/

namespace Verif

/-- `Symbol::to_token_def` (src/parser/mod.rs:180-197). -/
def Sym.toTokenDef (idx : Nat) : Sym → Option TokenDef
  | strLit s => some ⟨s, true, some idx⟩
  | regex s => some ⟨s, true, some idx⟩
  | epsilon => none
  | eof => none
  | nonTerm _ => none

namespace Ast.InSym

/-- `InputSymbol::to_token_def_with_regex` (src/parser/ast.rs:60-86).  `rx` is `RegexParser::parse`, an external
crate; its `unwrap` is `Err.badRegex`. -/
def tokenDefWithRegex (rx : Str → Option Hir) (idx : Nat) : InSym → Res (Option (TokenDef × Hir))
  | strLit s =>
    match rx s with
    | some h => .ok (some (⟨s, false, some idx⟩, h))
    | none => .error .badRegex
  | regex s =>
    match rx s with
    | some h => .ok (some (⟨s, true, some idx⟩, h))
    | none => .error .badRegex
  | named _ ty => tokenDefWithRegex rx idx ty
  | epsilon => .ok none
  | eof => .ok none
  | nonTerm _ => .ok none

/-- `InputSymbol::as_non_terminal` (src/parser/ast.rs:88-94). -/
def asNonTerminal : InSym → Option Str
  | named _ ty => asNonTerminal ty
  | nonTerm s => some s
  | _ => none

/-- `InputSymbol::is_terminal` (src/parser/ast.rs:96-105). -/
def isTerminal : InSym → Bool
  | eof => true
  | epsilon => true
  | regex _ => true
  | strLit _ => true
  | named _ ty => isTerminal ty
  | nonTerm _ => false

end Ast.InSym
end Verif
