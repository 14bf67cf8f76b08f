import Verif.Spec.Lr

/-! # Specification: items in 32 bits -/

namespace Verif.Spec
open Verif

/-- Production numbers and dots fit in 32 bits, as those in `Item` must. -/
def Fits32 (c : List Item) : Prop := ∀ it ∈ c, it.1 < 2 ^ 32 ∧ it.2 < 2 ^ 32

/-- So do all production numbers and dots of a grammar. -/
def SmallGrammar (g : Grammar) : Prop := g.prods.length ≤ 2 ^ 32 ∧ ∀ p ∈ g.prods, p.inputs.length < 2 ^ 32

end Verif.Spec
