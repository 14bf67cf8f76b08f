import Verif.Proofs.LexTraceOk
import Verif.Proofs.ShowOk
import Verif.Props.LexExact

/-! # What the lexer prints (C94) -/

namespace Verif.Props
open Verif Spec

/-- The text that shows where a piece begins and where its last character is. -/
def PlaceText (p : Nat × Nat × List Char) (s : Str) : Prop :=
  ∃ last, last + 1 = p.1 + p.2.2.length ∧ s = "LEXEME_BEGIN: ".toList ++ p.1.repr.toList ++ " FORWARD: ".toList ++ last.repr.toList

theorem munch_nonempty {T : List Char → Nat → Prop} {V : List Char → Prop} {k : Nat} {input : List Char} {out : List (Nat × Nat × List Char)}
    {dr : List Char} (h : Munch T V k input out dr) : ∀ p ∈ out, p.2.2 ≠ [] := by
  induction h with
  | done => simp
  | blank _ _ _ ih => exact ih
  | tok h1 _ _ _ ih => exact List.forall_mem_cons.mpr ⟨h1.1, ih⟩
  | tokEnd h1 => simpa using h1.1
  | stop => simp

theorem forall₂_left {α β : Type} {R : α → β → Prop} {l : List α} {r : List β} (h : List.Forall₂ R l r) : ∀ a ∈ l, ∃ b, R a b := by
  induction h with
  | nil => simp
  | cons h1 _ ih => exact List.forall_mem_cons.mpr ⟨⟨_, h1⟩, ih⟩

theorem forall₂_of_all {α β : Type} {R : α → β → Prop} : ∀ {l : List α}, (∀ a ∈ l, ∃ b, R a b) → ∃ r, List.Forall₂ R l r
  | [], _ => ⟨[], .nil⟩
  | _ :: _, h => by
    obtain ⟨⟨b, h1⟩, h2⟩ := List.forall_mem_cons.mp h
    obtain ⟨r, h3⟩ := forall₂_of_all h2
    exact ⟨b :: r, .cons h1 h3⟩

/-- **C94.**  The lexer prints, in order, where each of the pieces it cuts off begins and where it ends, for all of them if it gives a list of
tokens; if it panics, up to the first piece whose value it cannot take out of the text, that piece included. -/
theorem C94_places {toks : List (TokenDef × Hir)} {lx : Lex} {ord : Nfa.Order} (ho : Reorders ord) (h : Lex.fromTokens ord toks = .ok lx) :
    ∃ al, Overlap.removeOverlap (ofList (rangesOf toks)) = .ok al ∧
      ∀ input out dropped, Munch (PToken al toks) (PViable al toks) 0 input out dropped →
        (∀ ts, lx.lex input = .ok ts → List.Forall₂ PlaceText out (lx.lexPrinted input)) ∧
        ∀ e, lx.lex input = .error e → ∃ m p, out[m]? = some p ∧ (¬ ∃ t, Carries toks input p t) ∧
          (∀ q ∈ out.take m, ∃ t, Carries toks input q t) ∧ List.Forall₂ PlaceText (out.take (m + 1)) (lx.lexPrinted input) := by
  obtain ⟨N, acc, al, D, s0, M, P⟩ := Lex.fromTokens_pmade (reorders_ok ho) h
  have hal := built_alphabet M.built (combined_labels M.comb)
  refine ⟨al, hal, fun input out dropped hm => ?_⟩
  obtain ⟨o1, dr, h1, h2⟩ := Lex.printed_run lx input
  obtain ⟨o2, h3, h4⟩ := M.munch_pieces P input h1
  obtain ⟨rfl, rfl⟩ := Lex.pmunch_unique h3 hm
  obtain ⟨n, h5, h6⟩ := Lex.places_cut h4
  have htext : List.Forall₂ PlaceText (out.take n) (lx.lexPrinted input) := by
    rw [h2, h5, List.map_map, List.forall₂_map_right_iff, List.forall₂_same]
    intro p hp
    have := List.length_pos_iff.mpr (munch_nonempty hm p (List.mem_of_mem_take hp))
    exact ⟨p.1 + p.2.2.length - 1, by omega, by
      rw [← Show.digits_eq, ← Show.digits_eq]; rfl⟩
  obtain ⟨al', hal', hlex⟩ := C10_exact ho h
  rw [hal] at hal'; cases hal'
  obtain ⟨out', dr', _, h8, h9, h10⟩ := hlex input
  obtain ⟨rfl, rfl⟩ := h8 _ _ hm
  refine ⟨fun ts hts => ?_, fun e he => ?_⟩
  · rcases h6 with ⟨rfl, _⟩ | ⟨m, p, rfl, hp, hn, _⟩
    · rwa [List.take_length] at htext
    · have hf := (h9 ts).mp hts
      obtain ⟨t, ht⟩ := forall₂_left hf p (List.mem_of_getElem? hp)
      exact absurd ⟨t, ht⟩ hn
  · rcases h6 with ⟨rfl, hall⟩ | ⟨m, p, rfl, hp, hn, hq⟩
    · obtain ⟨ts, hts⟩ := forall₂_of_all hall
      rw [(h9 ts).mpr hts] at he; cases he
    · exact ⟨m, p, hp, hn, hq, htext⟩

-- C94: the hypotheses, a text with tokens and blanks, and one where the lexer panics.
example : ∃ lx, Lex.fromTokens (fun _ l => l) dropToks = .ok lx ∧ Reorders (fun _ l => l) ∧
    lx.lex "b  abcb\na".toList = .ok [⟨"b".toList, none⟩, ⟨"abc".toList, none⟩, ⟨"b".toList, none⟩, ⟨"a".toList, none⟩] ∧
    lx.lexPrinted "b  abcb\na".toList = ["LEXEME_BEGIN: 0 FORWARD: 0", "LEXEME_BEGIN: 3 FORWARD: 5", "LEXEME_BEGIN: 6 FORWARD: 6",
      "LEXEME_BEGIN: 8 FORWARD: 8"].map String.toList :=
  ⟨_, rfl, reorders_id, by rfl, by decide +kernel⟩

example : ∃ lx, Lex.fromTokens (fun _ l => l) accentToks = .ok lx ∧ lx.lex "b aé b".toList = .error .charBoundary ∧
    lx.lexPrinted "b aé b".toList = ["LEXEME_BEGIN: 0 FORWARD: 0", "LEXEME_BEGIN: 2 FORWARD: 3"].map String.toList :=
  ⟨_, rfl, by rfl, by decide +kernel⟩

end Verif.Props
