import Verif.Model.Parse

/-! # Specification: runs of the parser loop -/

namespace Verif.Spec
open Verif Lalr

/-- `n` iterations of the parser loop lead from one state to another. -/
inductive Runs (g : Grammar) (action : Table Nat Action) (got : Table Str Nat) (toks : List Nat) :
    Nat → PState → PState → Prop
  | refl {st} : Runs g action got toks 0 st st
  | head {n st st1 st2} : Lalr.step g action got toks st = .ok (some st1) → Runs g action got toks n st1 st2 →
      Runs g action got toks (n + 1) st st2

end Verif.Spec
