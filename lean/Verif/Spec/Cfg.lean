import Verif.Model.Grammar

/-! # Specification: context-free grammars

Derivations, FIRST and parse trees, independent of item sets and tables. -/

namespace Verif.Spec
open Verif

/-- The rules of the source grammar: one per production body. -/
def AstRule (ps : List Ast.Prod) (A : Str) (rhs : List Sym) : Prop :=
  ∃ p ∈ ps, ∃ b ∈ p.bodies, p.name = A ∧ b.inputs.map Ast.InSym.lower = rhs

/-- The rules of a list of numbered productions. -/
def Rule (ps : List Production) (A : Str) (rhs : List Sym) : Prop :=
  ∃ p ∈ ps, p.name = A ∧ p.inputs = rhs

/-- One rewriting step. -/
inductive Step (R : Str → List Sym → Prop) : List Sym → List Sym → Prop
  | mk {l r A rhs} : R A rhs → Step R (l ++ Sym.nonTerm A :: r) (l ++ rhs ++ r)

/-- Any number of rewriting steps. -/
inductive Steps (R : Str → List Sym → Prop) : List Sym → List Sym → Prop
  | refl {α} : Steps R α α
  | tail {α β γ} : Steps R α β → Step R β γ → Steps R α γ

/-- A terminal of the grammar language: a string literal or a regex. -/
def IsTerm : Sym → Prop
  | .strLit _ => True
  | .regex _ => True
  | _ => False

/-- `w` is a string of terminals derivable from the nonterminal `S`. -/
def Sentence (R : Str → List Sym → Prop) (S : Str) (w : List Sym) : Prop :=
  (∀ t ∈ w, IsTerm t) ∧ Steps R [.nonTerm S] w

/-- `t` can begin a string derived from `α`. -/
def Starts (R : Str → List Sym → Prop) (α : List Sym) (t : Sym) : Prop :=
  (∀ A, t ≠ .nonTerm A) ∧ ∃ β, Steps R α (t :: β)

/-- The symbols other than ε. -/
def erase (α : List Sym) : List Sym := α.filter fun s => decide (s ≠ .epsilon)

/-- The rules read with ε as the empty string. -/
def Erased (R : Str → List Sym → Prop) (A : Str) (rhs : List Sym) : Prop := ∃ r, R A r ∧ rhs = erase r

/-- `α` derives the empty string, ε being the empty string. -/
def Nullable (R : Str → List Sym → Prop) (α : List Sym) : Prop := Steps (Erased R) (erase α) []

/-- The rules of `R` with a body that is not empty, and for each of them one with the first symbol alone as its body. -/
def Headed (R : Str → List Sym → Prop) (A : Str) (rhs : List Sym) : Prop :=
  ∃ X r, R A (X :: r) ∧ (rhs = X :: r ∨ rhs = [X])

/-- What is left of bodies of `R` after symbols that derive the empty string by `N`. -/
def Skipped (N R : Str → List Sym → Prop) (A : Str) (rhs : List Sym) : Prop :=
  ∃ l, R A (l ++ rhs) ∧ Nullable N l

/-- `B` is the first symbol of some body of `A`. -/
def LeftCall (R : Str → List Sym → Prop) (A B : Str) : Prop := ∃ rhs, R A (.nonTerm B :: rhs)

/-- Reflexive transitive closure of `LeftCall`. -/
inductive LeftReach (R : Str → List Sym → Prop) : Str → Str → Prop
  | refl {A} : LeftReach R A A
  | tail {A B C} : LeftReach R A B → LeftCall R B C → LeftReach R A C

/-- `A` is left recursive. -/
def LeftRec (R : Str → List Sym → Prop) (A : Str) : Prop :=
  ∃ B, LeftCall R A B ∧ LeftReach R B A

/-- `B` occurs in a string derived from `A`. -/
inductive Uses (R : Str → List Sym → Prop) : Str → Str → Prop
  | refl {A} : Uses R A A
  | tail {A B C rhs} : Uses R A B → R B rhs → Sym.nonTerm C ∈ rhs → Uses R A C

/-- `C` follows a nonterminal in a body that can be reached from `S`. -/
def Follows (R : Str → List Sym → Prop) (S C : Str) : Prop :=
  ∃ A l B r, Uses R S A ∧ R A (l ++ .nonTerm B :: .nonTerm C :: r)

/-- Every nonterminal that can be reached has a rule, and no left recursion can be reached through
first symbols from a nonterminal that follows a nonterminal. -/
structure Buildable (R : Str → List Sym → Prop) (S : Str) : Prop where
  defined : ∀ A, Uses R S A → ∃ rhs, R A rhs
  first : ∀ A B, Follows R S A → LeftReach R A B → ¬ LeftRec R B

/-- `A` rewrites to `X` by one or more unit productions. -/
inductive UnitPlus (R : Str → List Sym → Prop) : Str → Sym → Prop
  | one {A X} : R A [X] → UnitPlus R A X
  | cons {A B X} : R A [.nonTerm B] → UnitPlus R B X → UnitPlus R A X

/-- The start symbol and every nonterminal in a body derive some string of terminals. -/
def Productive (R : Str → List Sym → Prop) (S : Str) : Prop :=
  (∃ w, Sentence R S w) ∧ ∀ A rhs B, R A rhs → Sym.nonTerm B ∈ rhs → ∃ w, Sentence R B w

/-- What the grammar language can express: bodies are not empty and contain only
string literals, regexes and nonterminals, and nonterminal names have no
apostrophe (src/parser/grammar.lalrpop: `NamedSymbol+`, `Symbol`, `Ident`). -/
def Expressible (ps : List Ast.Prod) : Prop :=
  ∀ p ∈ ps, '\'' ∉ p.name ∧ ∀ b ∈ p.bodies, b.inputs ≠ [] ∧
    ∀ s ∈ b.inputs, s.lower ≠ .epsilon ∧ s.lower ≠ .eof ∧ ∀ A, s.lower = .nonTerm A → '\'' ∉ A

/-- A list of parse trees: the first tree is a leaf, or a node with the list of
its children. -/
inductive Forest where
  | nil
  | leaf (t : Sym) (rest : Forest)
  | node (p : Nat) (kids rest : Forest)
deriving DecidableEq, Repr

namespace Forest
/-- The leaves from left to right. -/
def yield : Forest → List Sym
  | nil => []
  | leaf t rest => t :: rest.yield
  | node _ kids rest => kids.yield ++ rest.yield
/-- The productions of the nodes, children before parents, left to right. -/
def post : Forest → List Nat
  | nil => []
  | leaf _ rest => rest.post
  | node p kids rest => kids.post ++ p :: rest.post
/-- The symbols at the roots. -/
def roots (ps : List Production) : Forest → List Sym
  | nil => []
  | leaf t rest => t :: rest.roots ps
  | node p _ rest => .nonTerm ((ps[p]?.map (·.name)).getD []) :: rest.roots ps
/-- Leaves are terminals, nodes are productions with matching children. -/
def Valid (ps : List Production) : Forest → Prop
  | nil => True
  | leaf t rest => IsTerm t ∧ rest.Valid ps
  | node p kids rest =>
    (∃ prod, ps[p]? = some prod ∧ prod.inputs = kids.roots ps) ∧ kids.Valid ps ∧ rest.Valid ps
end Forest

/-- `f` is a parse tree of `w` with root `S`. -/
def IsTree (ps : List Production) (S : Str) (f : Forest) (w : List Sym) : Prop :=
  f.Valid ps ∧ f.roots ps = [.nonTerm S] ∧ f.yield = w

end Verif.Spec
