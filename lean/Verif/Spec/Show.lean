import Verif.Model.Show
import Mathlib.Data.List.Forall2

/-! # Specification: what is printed for symbols, productions and item sets -/

namespace Verif.Spec
open Verif

/-- The text of a symbol. -/
inductive Shows : Sym → Str → Prop
  | strLit (s) : Shows (.strLit s) s
  | nonTerm (s) : Shows (.nonTerm s) s
  | regex (s) : Shows (.regex s) s
  | epsilon : Shows .epsilon ['ε']
  | eof : Shows .eof ['﹩']

/-- `Spelled ts w`: the texts of the symbols `ts` with single spaces in between are `w`. -/
def Spelled (ts : List Sym) (w : Str) : Prop := ∃ ws, List.Forall₂ Shows ts ws ∧ w = [' '].intercalate ws

/-- `Dotted ts d w`: `w` is the text of the symbols `ts` with a dot before the symbol at position `d`,
or after the last one. -/
def Dotted (ts : List Sym) (d : Nat) (w : Str) : Prop :=
  (∃ a b ws u v, ts = a ++ b ∧ a.length = d ∧ b ≠ [] ∧ List.Forall₂ Shows a ws ∧
      u = ws.flatMap (fun x => x ++ [' ']) ∧ Spelled b v ∧ w = u ++ '⋅' :: v) ∨
    ∃ u, ts.length = d ∧ Spelled ts u ∧ w = u ++ ['⋅']

/-- The lines printed for one item with its lookaheads. -/
def entryLines (item : Str) (tokens : List Str) : List Str :=
  ["    Item {".toList, "        item: ".toList ++ item ++ [',']] ++
    (match tokens with
      | [] => ["        lookahead_tokens: {},".toList]
      | _ => ["        lookahead_tokens: {".toList] ++ tokens.map (fun t => "            ".toList ++ t ++ [',']) ++
          ["        },".toList]) ++
    ["    },".toList]

/-- The lines printed for a set of items. -/
def setLines : List (Str × List Str) → List Str
  | [] => ["{}".toList]
  | es => ["{".toList] ++ es.flatMap (fun e => entryLines e.1 e.2) ++ ["}".toList]

end Verif.Spec
