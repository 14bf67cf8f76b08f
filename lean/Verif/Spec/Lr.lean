import Verif.Spec.Cfg
import Verif.Model.Table
import Verif.Proofs.Order

/-! # Specification: LR(1) items

The closure rule and GOTO as relations on single items with a lookahead.  An item
is a production number and a dot; a lookahead is a token number. -/

namespace Verif.Spec
open Verif

/-- The item with lookahead is in the set. -/
def Has (s : ItemSet) (it : Item) (la : Nat) : Prop := ∃ las, (it, las) ∈ s ∧ la ∈ las

/-- `[A → α·Bβ, a]` asks for `[B → ·γ, b]` for every `b` that can begin `βa`. -/
def Asks (g : Grammar) (it : Item) (la : Nat) (q : Nat) (b : Nat) : Prop :=
  ∃ p B p' t tb, g.prods[it.1]? = some p ∧ p.inputs[it.2]? = some (.nonTerm B) ∧
    g.prods[q]? = some p' ∧ p'.name = B ∧ g.tokens[la]? = some t ∧
    Starts (Rule g.prods) (p.inputs.drop (it.2 + 1) ++ [t]) tb ∧ g.tokens[b]? = some tb

/-- Least set of items with lookahead containing `I` and closed under `Asks`. -/
inductive Clo (g : Grammar) (I : Item → Nat → Prop) : Item → Nat → Prop
  | base {it la} : I it la → Clo g I it la
  | step {it la q b} : Clo g I it la → Asks g it la q b → Clo g I (q, 0) b

/-- The items of `I` with `X` after the dot, dot advanced. -/
def Advanced (g : Grammar) (I : Item → Nat → Prop) (X : Sym) (it : Item) (la : Nat) : Prop :=
  ∃ d p, it.2 = d + 1 ∧ I (it.1, d) la ∧ g.prods[it.1]? = some p ∧ p.inputs[d]? = some X

/-- The canonical collection: the closure of `[S' → ·S, $]` and every non-empty
GOTO of a member.  Token number 0 is the end of input. -/
inductive Reach (g : Grammar) : (Item → Nat → Prop) → Prop
  | init : Reach g (Clo g fun it la => it = (0, 0) ∧ la = 0)
  | goto {I X} : Reach g I → (∃ it la, Advanced g I X it la) → Reach g (Clo g (Advanced g I X))

/-- An item set in the form a `BTreeMap<Item, BTreeSet<TokenIdx>>` has: keys and
values in increasing order.  (`nonempty`: no key without lookaheads.) -/
structure WFSet (s : ItemSet) : Prop where
  keys : Sorted (s.map Prod.fst)
  las : ∀ it l, (it, l) ∈ s → l ≠ [] ∧ Sorted l

/-- The distinct members of a list in order of first appearance. -/
def firsts {α : Type} [DecidableEq α] (l : List α) : List α :=
  l.foldl (fun acc a => if a ∈ acc then acc else acc ++ [a]) []

/-- The LR(0) core: the items without lookaheads. -/
def coreOf (s : ItemSet) : List Item := s.map Prod.fst

/-- State `j` is looked up for GOTO(s, x): the state with the core of the GOTO set
if that is one of the LR(1) sets, otherwise a state equal to it. -/
def Goes (g : Grammar) (lr lalr : List ItemSet) (s : ItemSet) (x : Sym) (j : Nat) : Prop :=
  ∃ r r', WFSet r ∧ (∀ it la, Has r it la ↔ Clo g (Advanced g (Has s) x) it la) ∧ lalr[j]? = some r' ∧
    ((r ∈ lr ∧ coreOf r' = coreOf r) ∨ (r ∉ lr ∧ r' = r))

/-- The entries the items of a state call for; `look x j`: state `j` is reached
over `x`.  Accept belongs to the completed augmented item on end of input. -/
inductive Calls (g : Grammar) (look : Sym → Nat → Prop) (s : ItemSet) : Item → Nat → Action → Prop
  | shift {it las p x k j} : (it, las) ∈ s → g.prods[it.1]? = some p → p.inputs[it.2]? = some x →
      (∀ A, x ≠ .nonTerm A) → g.tokens[k]? = some x → look x j → Calls g look s it k (.shift j)
  | reduce {it la p} : Has s it la → g.prods[it.1]? = some p → p.inputs[it.2]? = none →
      ¬ (la = 0 ∧ it.1 = 0) → Calls g look s it la (.reduce it.1)
  | accept {it p} : Has s it 0 → it.1 = 0 → g.prods[0]? = some p → p.inputs[it.2]? = none →
      Calls g look s it 0 .accept

/-- The same items, lookaheads apart. -/
def SameCore (I J : Item → Nat → Prop) : Prop := ∀ it, (∃ la, I it la) ↔ ∃ la, J it la

/-- The LALR(1) state of a canonical set: the union of the canonical sets with its core. -/
def LalrOf (g : Grammar) (I : Item → Nat → Prop) (it : Item) (la : Nat) : Prop :=
  ∃ J, Reach g J ∧ SameCore I J ∧ J it la

/-- A reduce/reduce or shift/reduce conflict: a completed item with a lookahead on
which another item is completed too, or which another item can shift. -/
def Conflict (g : Grammar) (I : Item → Nat → Prop) : Prop :=
  ∃ it la p it' p', I it la ∧ g.prods[it.1]? = some p ∧ p.inputs[it.2]? = none ∧ g.prods[it'.1]? = some p' ∧
    ((it ≠ it' ∧ I it' la ∧ p'.inputs[it'.2]? = none) ∨
     ∃ la' t, I it' la' ∧ p'.inputs[it'.2]? = some t ∧ g.tokens[la]? = some t)

/-- The grammar is LALR(1). -/
def IsLalr1 (g : Grammar) : Prop := ∀ I, Reach g I → ¬ Conflict g (LalrOf g I)

/-- Two items have the same terminal after the dot. -/
def SharedTerminal (g : Grammar) (I : Item → Nat → Prop) : Prop :=
  ∃ it la p it' la' p' t, it ≠ it' ∧ I it la ∧ I it' la' ∧ g.prods[it.1]? = some p ∧ g.prods[it'.1]? = some p' ∧
    p.inputs[it.2]? = some t ∧ p'.inputs[it'.2]? = some t ∧ ∀ A, t ≠ .nonTerm A

/-- Every symbol after a dot has an entry: a goto for a nonterminal, a shift for a terminal. -/
def AllTransitions (g : Grammar) (states : List ItemSet) (action : Table Nat Action) (goto : Table Str Nat) :
    Prop :=
  ∀ i s it la p x, states[i]? = some s → Has s it la → g.prods[it.1]? = some p → p.inputs[it.2]? = some x →
    (∀ A, x = .nonTerm A → ∃ j, goto.tryIndex i A = some j) ∧
    ((∀ A, x ≠ .nonTerm A) → ∃ k j, g.tokens[k]? = some x ∧ action.tryIndex i k = some (.shift j))

/-- The transition of the LALR(1) state of `I` over `X` is kept: its GOTO is a canonical set or an LALR(1)
state. -/
def Kept (g : Grammar) (I : Item → Nat → Prop) (X : Sym) : Prop :=
  Reach g (Clo g (Advanced g (LalrOf g I) X)) ∨ ∃ J, Reach g J ∧ Clo g (Advanced g (LalrOf g I) X) = LalrOf g J

/-- The transitions along a forest, from the canonical set `I` on, are kept. -/
def KeptAlong (g : Grammar) : (Item → Nat → Prop) → Forest → Prop
  | _, .nil => True
  | I, .leaf t f => Kept g I t ∧ KeptAlong g (Clo g (Advanced g I t)) f
  | I, .node p kids f => KeptAlong g I kids ∧ ∃ prod, g.prods[p]? = some prod ∧ Kept g I (.nonTerm prod.name) ∧
      KeptAlong g (Clo g (Advanced g I (.nonTerm prod.name))) f

/-- The transitions along a parse tree, from the initial set on, are kept. -/
def KeptTree (g : Grammar) (f : Forest) : Prop := KeptAlong g (Clo g fun it la => it = (0, 0) ∧ la = 0) f

/-- An item of the LALR(1) state of `I` claims the entry for token `k`: it is completed with that
lookahead, or shifts that token over a transition that is kept. -/
def Claims (g : Grammar) (I : Item → Nat → Prop) (it : Item) (k : Nat) : Prop :=
  ∃ p, g.prods[it.1]? = some p ∧
    ((LalrOf g I it k ∧ p.inputs[it.2]? = none) ∨
     ∃ la t, LalrOf g I it la ∧ p.inputs[it.2]? = some t ∧ (∀ A, t ≠ .nonTerm A) ∧ g.tokens[k]? = some t ∧ Kept g I t)

/-- Two items claim one entry. -/
def Clash (g : Grammar) : Prop := ∃ I it it' k, Reach g I ∧ it ≠ it' ∧ Claims g I it k ∧ Claims g I it' k

/-- The 64-bit hash of cores has no collisions on the collection. -/
def CollisionFree {H : Type} (hash : List Item → H) (sets : List ItemSet) : Prop :=
  ∀ s ∈ sets, ∀ t ∈ sets, hash (coreOf s) = hash (coreOf t) → coreOf s = coreOf t

end Verif.Spec
