import Verif.Model.Grammar

/-! # src/lalr/first.rs -/

namespace Verif.Grammar

/-- The loop over `production.input_tokens` (src/lalr/first.rs:47-53).  `rec` is the
recursive call.  The flag is `added_epsilon`. -/
def firstInputs (rec : List Sym → Sym → Res (List Sym × Bool)) :
    List Sym → List Sym → Bool → Res (List Sym × Bool)
  | [], set, eps => .ok (set, eps)
  | s :: ss, set, eps => do
    let (set, hasEps) ← rec set s
    if hasEps then firstInputs rec ss set true
    else return (set, eps)

/-- The loop over `production_iter` (src/lalr/first.rs:46-54). -/
def firstProds (g : Grammar) (rec : List Sym → Sym → Res (List Sym × Bool)) :
    List Nat → List Sym → Bool → Res (List Sym × Bool)
  | [], set, eps => .ok (set, eps)
  | p :: ps, set, eps => do
    let (set, eps) ← firstInputs rec (g.prodAt p).inputs set eps
    firstProds g rec ps set eps

/-- `first_of_symbol` (src/lalr/first.rs:32-57).  The first argument is the depth
of the call stack available; the code has no recursion guard, so exhausting every
depth is a stack overflow. -/
def firstOfSymbol (g : Grammar) : Nat → List Sym → Sym → Res (List Sym × Bool)
  | 0, _, _ => .error .stackOverflow
  | depth + 1, set, sym =>
    match sym.asNonTerminal with
    | none => .ok (oinsert sym set, decide (sym = .epsilon))
    | some name => do
      let ps ← g.productionIter name
      firstProds g (firstOfSymbol g depth) ps set false

/-- The loop of `first` (src/lalr/first.rs:15-22); the flag is `prev_has_epsilon`. -/
def firstLoop (g : Grammar) (depth : Nat) : List Sym → List Sym → Bool → Res (List Sym × Bool)
  | [], set, prev => .ok (set, prev)
  | s :: ss, set, _ => do
    let (set, _) ← firstOfSymbol g depth set s
    let prev := decide (Sym.epsilon ∈ set)
    let set := set.filter fun x => decide (x ≠ .epsilon)
    if prev then firstLoop g depth ss set true
    else return (set, false)

/-- `first` (src/lalr/first.rs:5-29). -/
def first (g : Grammar) (depth : Nat) (symbols : List Sym) : Res (List Sym) := do
  let (set, prev) ← firstLoop g depth symbols [] true
  return if prev then oinsert .epsilon set else set

end Verif.Grammar
