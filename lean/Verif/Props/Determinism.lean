import Verif.Model.Lex
import Verif.Proofs.Order
import Verif.Props.Regex

/-! # Property C45: hash iteration order does not matter -/

namespace Verif.Props
open Verif Spec

theorem fromNfa_order (n : Nfa) {ord ord' : Nfa.Order} (ho : Reorders ord) (ho' : Reorders ord') :
    Dfa.fromNfa n ord = Dfa.fromNfa n ord' := by
  obtain ⟨r, h1, _, h3⟩ := n.epsClosure_ok (reorders_ok ho) 0 [Nfa.START]
  obtain ⟨r', h1', _, h3'⟩ := n.epsClosure_ok (reorders_ok ho') 0 [Nfa.START]
  have : ofList (ord 1 r) = ofList (ord' 1 r') :=
    sorted_ext (sorted_ofList _) (sorted_ofList _) fun x => by
      rw [mem_ofList, mem_ofList, (ho 1 r).mem_iff, (ho' 1 r').mem_iff, h3, h3']
  unfold Dfa.fromNfa Dfa.build
  simp only [h1, h1', this, bind, Except.bind]

/-- C45, lexer half: `Lex::from_tokens` gives the same lexer, or the same failure,
whatever the order in which the hash sets are iterated. -/
theorem C45_lexer {ord ord' : Nfa.Order} (ho : Reorders ord) (ho' : Reorders ord')
    (toks : List (TokenDef × Hir)) : Lex.fromTokens ord toks = Lex.fromTokens ord' toks := by
  unfold Lex.fromTokens
  cases Lex.buildNfas toks with
  | error e => rfl
  | ok ns => simp only [bind, Except.bind, fromNfa_order _ ho ho']

/-- C45, NFA simulation: the verdict does not depend on the order either. -/
theorem C45_simulate {h : Hir} {n : Nfa} (hn : Nfa.fromRegex h = .ok n) {ord ord' : Nfa.Order}
    (ho : Reorders ord) (ho' : Reorders ord') (s : Str) :
    n.simulate ord s = n.simulate ord' s := by
  obtain ⟨b, h1, h2⟩ := C01_simulate_iff_matches hn ho s
  obtain ⟨b', h1', h2'⟩ := C01_simulate_iff_matches hn ho' s
  rw [h1, h1']
  have : b = b' := by
    rw [Bool.eq_iff_iff, h2, h2']
  rw [this]

/-- Two different orders. -/
example : Reorders (fun _ l => l) ∧ Reorders (fun _ l => l.reverse) ∧
    (fun (_ : Nat) (l : List Nat) => l) ≠ fun _ l => l.reverse :=
  ⟨reorders_id, reorders_reverse, fun h => absurd (congrFun (congrFun h 0) [0, 1]) (by decide)⟩

end Verif.Props
