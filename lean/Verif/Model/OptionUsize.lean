import Verif.Model.Prelude

/-! # src/option_usize.rs -/

namespace Verif.OptUsize

/-- `usize::MAX` on a 64-bit target (src/option_usize.rs:7). -/
def usizeMax : UInt64 := 0xFFFFFFFFFFFFFFFF

/-- `OptionUsize<T>` (src/option_usize.rs:1-2) at `T = usize`.  The conversions
of the other instance `StateIdx` are the identity on the wrapped number
(src/lex/nfa.rs:48-58). -/
structure OptionUsize where
  raw : UInt64
deriving DecidableEq

/-- src/option_usize.rs:22-25 -/
def some (v : UInt64) : OptionUsize := ⟨v⟩
/-- src/option_usize.rs:27-30 -/
def none : OptionUsize := ⟨usizeMax⟩
/-- src/option_usize.rs:32-35 -/
def isNone (o : OptionUsize) : Bool := o.raw == usizeMax
/-- src/option_usize.rs:37-40 -/
def isSome (o : OptionUsize) : Bool := o.raw != usizeMax
/-- src/option_usize.rs:5-11 -/
def unwrap (o : OptionUsize) : Res UInt64 :=
  if o.raw == usizeMax then .error .optionUsizeNone else .ok o.raw
/-- src/option_usize.rs:13-20 -/
def unwrapOr (o : OptionUsize) (v : UInt64) : UInt64 :=
  if o.raw == usizeMax then v else o.raw
/-- src/option_usize.rs:42-48 -/
def map {α : Type} (o : OptionUsize) (f : UInt64 → Option α) : Option α :=
  if o.raw == usizeMax then Option.none else f o.raw

end Verif.OptUsize
