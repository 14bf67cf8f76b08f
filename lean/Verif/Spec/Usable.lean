import Verif.Spec.Program
import Verif.Spec.TsWritten
import Verif.Spec.TsType
import Verif.Spec.TsUser
import Verif.Spec.Tokens
import Verif.Spec.Scan
import Verif.Spec.Pieces

/-! # Specification: grammars whose generated parser does what the grammar says

What an author has to observe so that the types written for a grammar compute the value of a text.
Beside the conditions stand the theorems that show what happens without them. -/

namespace Verif.Spec
open Verif MiniTs

/-- `s` is a terminal written in the grammar. -/
def HasTerm (ps : List Ast.Prod) (s : Sym) : Prop :=
  IsTerm s ∧ ∃ p ∈ ps, ∃ b ∈ p.bodies, ∃ x ∈ b.inputs, x.lower = s

/-- `m` is a range of characters of a terminal written in the grammar: a character of a literal, or a
range in a regex. -/
def TermRange (rx : Str → Option Hir) (ps : List Ast.Prod) (m : Match) : Prop :=
  (∃ l, HasTerm ps (.strLit l) ∧ ∃ c ∈ l, m = ⟨c.toNat, c.toNat + 1⟩) ∨
  ∃ r h, HasRegex ps r ∧ rx r = some h ∧ m ∈ ranges h

/-- After `w`, which begins a text of a terminal written in the grammar, the next character of that
terminal may come from the range `m`. -/
def TermAfter (rx : Str → Option Hir) (ps : List Ast.Prod) (w : List Char) (m : Match) : Prop :=
  (∃ c v, HasTerm ps (.strLit (w ++ c :: v)) ∧ m = ⟨c.toNat, c.toNat + 1⟩) ∨
  ∃ r h, HasRegex ps r ∧ rx r = some h ∧ Next h w m

/-- The conditions on the names in a grammar read from a file. -/
structure GoodNames (ps : List Ast.Prod) : Prop where
  /-- parameters of a body have different names -/
  distinct : ∀ p ∈ ps, ∀ b ∈ p.bodies, (names b.inputs).Nodup
  /-- no parameter has the name of the stack of an action (`C37_false`) -/
  noStack : ∀ p ∈ ps, ∀ b ∈ p.bodies, "newStack".toList ∉ names b.inputs
  /-- no parameter hides a nonterminal of its body (`C37_false_hidden`) -/
  noHiding : NoHiding ps
  /-- productions are not called like something else that is declared, parameters have a declared type -/
  names : TsNames ps
  /-- names of nonterminals are no words of TypeScript -/
  reserved : (∀ p ∈ ps, p.name ∉ TsProject.reserved) ∧
    ∀ p ∈ ps, ∀ b ∈ p.bodies, ∀ s ∈ b.inputs, ∀ n, s.lower = .nonTerm n → n ∉ TsProject.reserved

/-- The conditions on the terminals of a grammar read from a file; `max` is the size of the tables for
arithmetic. -/
structure GoodTerms (rx : Str → Option Hir) (max : Nat) (ps : List Ast.Prod) : Prop where
  /-- no two terminals are spelled alike (`C32_false`, `C48_false_twice`) -/
  distinct : ∀ s t, HasTerm ps s → HasTerm ps t → spelling s = spelling t → s = t
  /-- none is spelled like the end marker (`C37_false_eof`) -/
  noEof : ∀ s, HasTerm ps s → spelling s ≠ "EOF".toList
  /-- they have no backslash, apostrophe or line break (`C43_false`, `C43_false_value`) -/
  plain : ∀ s, HasTerm ps s → '\\' ∉ spelling s ∧ '\'' ∉ spelling s ∧ ∀ c ∈ spelling s, isBreak c = false
  /-- no regex has a name (`C60_false_written`) -/
  unnamed : ∀ p ∈ ps, ∀ b ∈ p.bodies, ∀ n r, Ast.InSym.named n (.regex r) ∉ b.inputs
  /-- the alphabet computed from the ranges of characters has no more pieces than the tables have numbers;
  enough for this is that they are disjoint -/
  few : ∀ rs, (∀ m, m ∈ rs ↔ TermRange rx ps m) → ∀ al, Overlap.removeOverlap (ofList rs) = .ok al → al.length ≤ max
  /-- the ranges begin and end inside the tables (`C36_false`), or end with Unicode -/
  inside : ∀ m, TermRange rx ps m → m.lo < max ∧ (m.hi < max ∨ m.hi = 0x110000)

/-- The conditions on the ranges of characters of the terminals under which reading piece by piece is the ordinary
meaning of the regexes. -/
structure GoodRanges (rx : Str → Option Hir) (ps : List Ast.Prod) : Prop where
  /-- the pieces of the alphabet computed from the ranges of characters fit them (`C33_false`); enough for
  this is that none lies partly inside a range -/
  atoms : ∀ rs, (∀ m, m ∈ rs ↔ TermRange rx ps m) → Fits rs (TermAfter rx ps)
  /-- every class of a regex has a character -/
  nonVoid : ∀ r h, HasRegex ps r → rx r = some h → NonVoid h

/-- The conditions on the code in a grammar read from a file. -/
structure GoodCode (ps : List Ast.Prod) : Prop where
  /-- types and code are made of what is modelled -/
  readable : Readable ps
  /-- no code ends in a line comment (`C61_false_comment`) -/
  closed : ∀ p ∈ ps, ∀ b ∈ p.bodies, TsProject.Closed b.mapping
  /-- the code of a body has a value, of the type declared for its production -/
  typed : WellTyped (semOf (userOf ps)) ps

/-- The GOTO of every LALR(1) state is a canonical LR(1) set or an LALR(1) state (`C28_false`). -/
def AllKept (ps : List Ast.Prod) : Prop :=
  ∀ g, Grammar.fromAst ps = .ok g → ∀ I X, Reach g I → (∃ it la, Advanced g (LalrOf g I) X it la) → Kept g I X

/-- All conditions but those on the ranges. -/
structure Usable (rx : Str → Option Hir) (max : Nat) (ps : List Ast.Prod) : Prop where
  names : GoodNames ps
  terms : GoodTerms rx max ps
  code : GoodCode ps
  /-- the tables for arithmetic have all codes of characters -/
  chars : 255 ≤ max
  /-- and the lengths of all bodies -/
  bodies : ∀ p ∈ ps, ∀ b ∈ p.bodies, b.inputs.length ≤ max

/-- What `Parse<L.Lex<"input">>` is in a project, where `Cut` says which cuts of the input there are: there is one; if
it meets an invalid character, an error message; otherwise the start symbol with value `v` exactly if the cut has a parse tree of
value `v` with fewer than 50 leaves and nodes along which all transitions are kept, and one of two error
messages if there is none, or `not good` if transitions are dropped (`C28_false`). -/
def ComputesCut (Cut : List (Nat × Nat × List Char) → Option (Nat × Char) → Prop) (files : Mod → TsProject.File)
    (ps : List Ast.Prod) (start : Str) (g : Grammar) (ds : List (TokenDef × Hir)) (input : Str) : Prop :=
  ∃ out err, Cut out err ∧ (∀ out' err', Cut out' err' → out' = out ∧ err' = err) ∧
    ((∃ i c, err = some (i, c) ∧
      TsProject.Denotes files .parse (applied "L.Lex".toList [.str input])
        (.str ("invalid symbol: `".toList ++ [c] ++ "` at index ".toList ++ LexGen.digits i)) ∧
      ∀ t, TsProject.Denotes files .parse (parseOfLex input) t ↔
        t = .tup [.str "error: invalid token undefined".toList, .tup []]) ∨
     (err = none ∧ ∃ ws : List Sym, out.map (pieceSym g ds) = ws.map some ∧
      (∀ v, TsProject.Denotes files .parse (parseOfLex input) (.tup [kindValue start (some v)]) ↔
        ∃ f, IsTree g.prods start f ws ∧ KeptTree g f ∧ ws.length + f.post.length < 50 ∧
          Eval (semOf (userOf ps)) ps f (out.map (·.2.2)) [v]) ∧
      ((∃ v, TsProject.Denotes files .parse (parseOfLex input) (.tup [kindValue start (some v)])) ∨
        TsProject.Denotes files .parse (parseOfLex input) (.str "exceeded max recursion depth".toList) ∨
        (∃ m ts, TsProject.Denotes files .parse (parseOfLex input)
          (.tup [.str ("error: invalid token ".toList ++ m), .tup ts])) ∨
        (TsProject.Denotes files .parse (parseOfLex input) (.str "not good".toList) ∧ ¬ AllKept ps))))

/-- The cut is by maximal munch. -/
def Computes (files : Mod → TsProject.File) (ps : List Ast.Prod) (start : Str) (g : Grammar) (ds : List (TokenDef × Hir))
    (input : Str) : Prop :=
  ComputesCut (Scan ds 0 input) files ps start g ds input

/-- The cut is by maximal munch, the text being read piece by piece. -/
def ComputesPieces (al : List Match) (files : Mod → TsProject.File) (ps : List Ast.Prod) (start : Str) (g : Grammar)
    (ds : List (TokenDef × Hir)) (input : Str) : Prop :=
  ComputesCut (MunchErr (PToken al ds) (PViable al ds) 0 input) files ps start g ds input

end Verif.Spec
