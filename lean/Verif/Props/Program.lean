import Verif.Proofs.ProgramOk
import Verif.Props.Tables
import Verif.Props.FrontEnd
import Verif.Props.Parse

/-! # Property C64: when the program writes files, and why it stops otherwise -/

namespace Verif.Props
open Verif Spec FrontEnd

section
variable {H : Type} [DecidableEq H] {hash : List Item → H} {rx : Str → Option Hir} {ord : Nfa.Order} {text : Str}
  {ps : List Ast.Prod} {start : Ast.Prod} {g : Grammar}

/-- The hash keeps the cores of the grammar in `text` apart. -/
def TextNoCollisions {H : Type} (hash : List Item → H) (text : Str) : Prop :=
  ∀ ps g, (∃ ts, Cut text ts ∧ IsProgram ts ps) → Grammar.fromAst ps = .ok g → NoCollisions hash g (Lalr.depthOf g)

theorem _root_.Verif.Spec.ReadsGrammar.parsed (h : ReadsGrammar text ps start) : parseGrammar text = .ok ps := (C49_reads text ps).mpr h.1

theorem _root_.Verif.Spec.ReadsGrammar.unique {ps' : List Ast.Prod} {start' : Ast.Prod} (h : ReadsGrammar text ps start)
    (h' : ReadsGrammar text ps' start') : ps' = ps ∧ start' = start := by
  have e := h'.parsed
  rw [h.parsed] at e; cases e
  have e := h'.2
  rw [h.2] at e; cases e
  exact ⟨rfl, rfl⟩

theorem _root_.Verif.Spec.ReadsGrammar.grammar (h : ReadsGrammar text ps start) : ∃ g, Grammar.fromAst ps = .ok g :=
  let ⟨g, hg, _⟩ := Grammar.fromAst_spec h.2
  ⟨g, hg⟩

theorem supported_iff {h : Hir} : Supported h ↔ ¬ Unsupported h :=
  Nfa.fromRegex_ok_iff.symm.trans (C02_ok_iff h)

/-- After the grammar is read only the construction of the parser can fail. -/
theorem compile_eq (h : ReadsGrammar text ps start) (hg : Grammar.fromAst ps = .ok g) :
    (∀ e, compile hash rx ord text = .error e ↔ Lalr.new hash rx ord g = .error e) ∧
    ((∃ out, compile hash rx ord text = .ok out) ↔ ∃ l, Lalr.new hash rx ord g = .ok l) := by
  have hp := h.parsed
  obtain ⟨he, hn, _⟩ := C51_expressible hp
  unfold compile
  simp only [hp, hg, bind, Except.bind]
  cases hl : Lalr.new hash rx ord g with
  | error e => simp
  | ok l =>
    obtain ⟨T, hT⟩ := ParseGen.generate_never he hn hg (new_ok hl).1
    simp [generateFiles, hT, bind, Except.bind, pure, Except.pure]

/-- The construction of the parser. -/
theorem new_cases (he : Expressible ps) (hst : ps.find? (fun p => p.isStart) = some start) (hg : Grammar.fromAst ps = .ok g)
    (ho : Reorders ord) (hh : NoCollisions hash g (Lalr.depthOf g)) :
    ((∃ l, Lalr.new hash rx ord g = .ok l) ∧ RegexesOk rx ps ∧ Buildable (AstRule ps) start.name ∧ ¬ Clash g) ∨
    (Lalr.new hash rx ord g = .error .badRegex ∧ ∃ r, HasRegex ps r ∧ rx r = none) ∨
    (∃ e r h, Lalr.new hash rx ord g = .error e ∧ (∀ r, HasRegex ps r → rx r ≠ none) ∧ HasRegex ps r ∧ rx r = some h ∧
      Nfa.Fault h e) ∨
    (Lalr.new hash rx ord g = .error .undefinedNonTerminal ∧ RegexesOk rx ps ∧
      ∃ A, Uses (AstRule ps) start.name A ∧ ∀ rhs, ¬ AstRule ps A rhs) ∨
    (Lalr.new hash rx ord g = .error .stackOverflow ∧ RegexesOk rx ps ∧
      ∃ A B, Follows (AstRule ps) start.name A ∧ LeftReach (AstRule ps) A B ∧ LeftRec (AstRule ps) B) ∨
    (Lalr.new hash rx ord g = .error .conflict ∧ RegexesOk rx ps ∧ Buildable (AstRule ps) start.name ∧ Clash g) := by
  have hok := Grammar.gok_of_fromAst he hg
  have ht := Grammar.regex_tokens he hg
  rcases Grammar.lexer_cases rx (reorders_ok ho) g with ⟨⟨L, hL⟩, hr⟩ | ⟨hL, r, h1, h2⟩ | ⟨e, r, h, hL, h1, h2, h3, h4⟩
  · have hro : RegexesOk rx ps := fun r h => by
      obtain ⟨x, k1, k2⟩ := hr r ((ht r).mpr h)
      exact ⟨x, k1, supported_iff.mp k2⟩
    by_cases hb : Buildable (AstRule ps) start.name
    · obtain ⟨c1, c2⟩ := C24_clash he hst hg hb hh
      by_cases hc : Clash g
      · refine .inr (.inr (.inr (.inr (.inr ⟨?_, hro, hb, hc⟩))))
        simp only [Lalr.new, hL, c1.mpr hc, bind, Except.bind]
      · obtain ⟨⟨a, t, s⟩, hT⟩ := c2.mpr hc
        refine .inl ⟨⟨⟨g, L, a, t, s⟩, ?_⟩, hro, hb, hc⟩
        simp only [Lalr.new, hL, hT, bind, Except.bind, pure, Except.pure]
    · obtain ⟨k1, k2⟩ := C22_items_terminates he hst hg
      cases hi : ItemSet.items g (Lalr.depthOf g) with
      | ok c => exact absurd (k2.mp ⟨c, hi⟩) hb
      | error e =>
        have hn : Lalr.new hash rx ord g = .error e := by
          simp only [Lalr.new, Lalr.makeTables, hL, hi, bind, Except.bind]
        rcases k1 _ _ hi with rfl | rfl
        · obtain ⟨A, B, h1, h2, h3⟩ := ItemSet.items_error_overflow hok hi
          exact .inr (.inr (.inr (.inr (.inl ⟨hn, hro, A, B, Grammar.leftRec_ast he hst hg h1 h2 h3⟩))))
        · obtain ⟨A, h1, h2⟩ := ItemSet.items_error_undefined hok hi
          exact .inr (.inr (.inr (.inl ⟨hn, hro, A, Grammar.uses_ast he hst hg h1 h2⟩)))
  · refine .inr (.inl ⟨?_, r, (ht r).mp h1, h2⟩)
    simp only [Lalr.new, hL, bind, Except.bind]
  · refine .inr (.inr (.inl ⟨e, r, h, ?_, fun r hr => h1 r ((ht r).mpr hr), (ht r).mp h2, h3, h4⟩))
    simp only [Lalr.new, hL, bind, Except.bind]

/-- The reading of a text, or the reason why it has none. -/
theorem reading_cases (rx : Str → Option Hir) (hash : List Item → H) (ord : Nfa.Order) (text : Str) :
    (∃ ps start, ReadsGrammar text ps start) ∨
    (compile hash rx ord text = .error .syntaxError ∧ ¬ ∃ ts ps, Cut text ts ∧ IsProgram ts ps) ∨
    (compile hash rx ord text = .error .noStart ∧ ∃ ts ps, Cut text ts ∧ IsProgram ts ps ∧ ∀ p ∈ ps, p.isStart = false) := by
  cases hp : parseGrammar text with
  | error e =>
    have he := parseGrammar_error hp
    subst he
    refine .inr (.inl ⟨?_, (C49_refuses text).mp hp⟩)
    simp only [compile, hp, bind, Except.bind]
  | ok ps =>
    have hr := (C49_reads text ps).mp hp
    cases hs : ps.find? (fun p => p.isStart) with
    | some start => exact .inl ⟨ps, start, hr, hs⟩
    | none =>
      have hn : ∀ p ∈ ps, p.isStart = false := by simpa using hs
      obtain ⟨ts, h1, h2⟩ := hr
      refine .inr (.inr ⟨?_, ts, ps, h1, h2, hn⟩)
      simp only [compile, hp, (C17_no_start ps).mpr hn, bind, Except.bind]

/-- C64.  Files are written exactly for the texts that are a grammar with a start production, all of
whose regexes can be parsed and contain only what is implemented, every nonterminal of which has a rule,
in which FIRST meets no left recursion, and in which no two items of a state claim one entry. -/
theorem C64_writes (ho : Reorders ord) (hh : TextNoCollisions hash text) :
    (∃ out, compile hash rx ord text = .ok out) ↔
      ∃ ps start g, ReadsGrammar text ps start ∧ Grammar.fromAst ps = .ok g ∧ RegexesOk rx ps ∧
        Buildable (AstRule ps) start.name ∧ ¬ Clash g := by
  constructor
  · rintro ⟨out, hout⟩
    rcases reading_cases rx hash ord text with ⟨ps, start, hr⟩ | ⟨h, _⟩ | ⟨h, _⟩
    · obtain ⟨g, hg⟩ := hr.grammar
      obtain ⟨he, _⟩ := C51_expressible hr.parsed
      obtain ⟨l, hl⟩ := (compile_eq hr hg).2.mp ⟨out, hout⟩
      refine ⟨ps, start, g, hr, hg, ?_⟩
      rcases new_cases (rx := rx) he hr.2 hg ho (hh ps g hr.1 hg) with
        ⟨_, h⟩ | ⟨h, _⟩ | ⟨_, _, _, h, _⟩ | ⟨h, _⟩ | ⟨h, _⟩ | ⟨h, _⟩
      · exact h
      all_goals rw [hl] at h; cases h
    · rw [hout] at h; cases h
    · rw [hout] at h; cases h
  · rintro ⟨ps, start, g, hr, hg, h1, h2, h3⟩
    obtain ⟨he, _⟩ := C51_expressible hr.parsed
    refine (compile_eq hr hg).2.mpr ?_
    rcases new_cases (rx := rx) he hr.2 hg ho (hh ps g hr.1 hg) with
      ⟨h, _⟩ | ⟨_, r, k1, k2⟩ | ⟨e, r, h, _, _, k1, k2, k3⟩ | ⟨_, _, A, k1, k2⟩ | ⟨_, _, A, B, k1, k2, k3⟩ | ⟨_, _, _, k⟩
    · exact h
    · obtain ⟨h, k, _⟩ := h1 r k1
      rw [k2] at k; cases k
    · obtain ⟨h', k, k'⟩ := h1 r k1
      rw [k2] at k; cases k
      exact absurd (Nfa.unsupported_of (k3.imp And.right And.right)) k'
    · obtain ⟨rhs, k⟩ := h2.defined A k1
      exact absurd k (k2 rhs)
    · exact absurd k3 (h2.first A B k1 k2)
    · exact absurd k h3

/-- C64.  When no file is written, the panic is one of eight, and what it says is the case. -/
theorem C64_stops (ho : Reorders ord) (hh : TextNoCollisions hash text) {e : Err}
    (h : compile hash rx ord text = .error e) : Stops rx text e := by
  rcases reading_cases rx hash ord text with ⟨ps, start, hr⟩ | ⟨h', k⟩ | ⟨h', ts, ps, k1, k2, k3⟩
  · obtain ⟨g, hg⟩ := hr.grammar
    obtain ⟨he, _⟩ := C51_expressible hr.parsed
    have hn := ((compile_eq hr hg).1 e).mp h
    rcases new_cases (rx := rx) he hr.2 hg ho (hh ps g hr.1 hg) with
      ⟨⟨l, h'⟩, _⟩ | ⟨h', r, k1, k2⟩ | ⟨e', r, x, h', k0, k1, k2, k3⟩ | ⟨h', k0, A, k1, k2⟩ | ⟨h', k0, A, B, k1, k2, k3⟩ |
        ⟨h', k0, k1, k2⟩ <;> rw [hn] at h' <;> cases h'
    · exact .badRegex hr k1 k2
    · rcases k3 with ⟨rfl, k3⟩ | ⟨rfl, k3⟩
      · exact .todo hr k0 k1 k2 k3
      · exact .emptyOperand hr k0 k1 k2 k3
    · exact .undefinedNonTerminal hr k0 k1 k2
    · exact .stackOverflow hr k0 k1 k2 k3
    · exact .conflict hr k0 k1 hg k2
  · rw [h] at h'; cases h'
    exact .syntaxError k
  · rw [h] at h'; cases h'
    exact .noStart k1 k2 k3

/-- The two kinds of panic at regexes, and the two at nonterminals, can have a reason at the same time. -/
def SameStep (e e' : Err) : Prop :=
  e = e' ∨ (e ∈ [Err.todo, .optionUsizeNone] ∧ e' ∈ [Err.todo, .optionUsizeNone]) ∨
    (e ∈ [Err.undefinedNonTerminal, .stackOverflow] ∧ e' ∈ [Err.undefinedNonTerminal, .stackOverflow])

/-- Reasons of different steps exclude each other. -/
theorem stops_same {e e' : Err} (h : Stops rx text e) (h' : Stops rx text e') : SameStep e e' := by
  have hread : ∀ {ps start}, ReadsGrammar text ps start → ∃ ts ps, Cut text ts ∧ IsProgram ts ps :=
    fun {ps _} h => let ⟨⟨ts, h1, h2⟩, _⟩ := h; ⟨ts, ps, h1, h2⟩
  have hstart : ∀ {ps start ts ps'}, ReadsGrammar text ps start → Cut text ts → IsProgram ts ps' →
      (∀ p ∈ ps', p.isStart = false) → False := by
    intro ps start ts ps' hr h1 h2 h3
    have e := (C49_reads text ps').mpr ⟨ts, h1, h2⟩
    rw [hr.parsed] at e; cases e
    have k1 := h3 start (List.mem_of_find?_eq_some hr.2)
    have k2 := List.find?_some hr.2
    simp [k1] at k2
  have hfault : ∀ {ps r x}, RegexesOk rx ps → HasRegex ps r → rx r = some x → (Unimplemented x ∨ EmptyOperand x) → False := by
    intro ps r x h1 h2 h3 h4
    obtain ⟨y, k1, k2⟩ := h1 r h2
    rw [h3] at k1; cases k1
    exact k2 (Nfa.unsupported_of h4)
  have hnone : ∀ {ps r}, RegexesOk rx ps → HasRegex ps r → rx r = none → False := by
    intro ps r h1 h2 h3
    obtain ⟨y, k1, _⟩ := h1 r h2
    rw [h3] at k1; cases k1
  cases h with
  | syntaxError h1 =>
    cases h' with
    | syntaxError => exact .inl rfl
    | noStart k1 k2 => exact absurd ⟨_, _, k1, k2⟩ h1
    | badRegex k => exact absurd (hread k) h1
    | todo k => exact absurd (hread k) h1
    | emptyOperand k => exact absurd (hread k) h1
    | undefinedNonTerminal k => exact absurd (hread k) h1
    | stackOverflow k => exact absurd (hread k) h1
    | conflict k => exact absurd (hread k) h1
  | noStart h1 h2 h3 =>
    cases h' with
    | syntaxError k => exact absurd ⟨_, _, h1, h2⟩ k
    | noStart k1 k2 => exact .inl rfl
    | badRegex k => exact (hstart k h1 h2 h3).elim
    | todo k => exact (hstart k h1 h2 h3).elim
    | emptyOperand k => exact (hstart k h1 h2 h3).elim
    | undefinedNonTerminal k => exact (hstart k h1 h2 h3).elim
    | stackOverflow k => exact (hstart k h1 h2 h3).elim
    | conflict k => exact (hstart k h1 h2 h3).elim
  | badRegex h1 h2 h3 =>
    cases h' with
    | syntaxError k => exact absurd (hread h1) k
    | noStart k1 k2 k3 => exact (hstart h1 k1 k2 k3).elim
    | badRegex k => exact .inl rfl
    | todo k k1 => obtain ⟨rfl, rfl⟩ := h1.unique k; exact absurd h3 (k1 _ h2)
    | emptyOperand k k1 => obtain ⟨rfl, rfl⟩ := h1.unique k; exact absurd h3 (k1 _ h2)
    | undefinedNonTerminal k k1 => obtain ⟨rfl, rfl⟩ := h1.unique k; exact (hnone k1 h2 h3).elim
    | stackOverflow k k1 => obtain ⟨rfl, rfl⟩ := h1.unique k; exact (hnone k1 h2 h3).elim
    | conflict k k1 => obtain ⟨rfl, rfl⟩ := h1.unique k; exact (hnone k1 h2 h3).elim
  | todo h1 h2 h3 h4 h5 =>
    cases h' with
    | syntaxError k => exact absurd (hread h1) k
    | noStart k1 k2 k3 => exact (hstart h1 k1 k2 k3).elim
    | badRegex k k1 k2 => obtain ⟨rfl, rfl⟩ := h1.unique k; exact absurd k2 (h2 _ k1)
    | todo k k1 => exact .inl rfl
    | emptyOperand k k1 => exact .inr (.inl (by simp))
    | undefinedNonTerminal k k1 => obtain ⟨rfl, rfl⟩ := h1.unique k; exact (hfault k1 h3 h4 (.inl h5)).elim
    | stackOverflow k k1 => obtain ⟨rfl, rfl⟩ := h1.unique k; exact (hfault k1 h3 h4 (.inl h5)).elim
    | conflict k k1 => obtain ⟨rfl, rfl⟩ := h1.unique k; exact (hfault k1 h3 h4 (.inl h5)).elim
  | emptyOperand h1 h2 h3 h4 h5 =>
    cases h' with
    | syntaxError k => exact absurd (hread h1) k
    | noStart k1 k2 k3 => exact (hstart h1 k1 k2 k3).elim
    | badRegex k k1 k2 => obtain ⟨rfl, rfl⟩ := h1.unique k; exact absurd k2 (h2 _ k1)
    | todo k k1 => exact .inr (.inl (by simp))
    | emptyOperand k k1 => exact .inl rfl
    | undefinedNonTerminal k k1 => obtain ⟨rfl, rfl⟩ := h1.unique k; exact (hfault k1 h3 h4 (.inr h5)).elim
    | stackOverflow k k1 => obtain ⟨rfl, rfl⟩ := h1.unique k; exact (hfault k1 h3 h4 (.inr h5)).elim
    | conflict k k1 => obtain ⟨rfl, rfl⟩ := h1.unique k; exact (hfault k1 h3 h4 (.inr h5)).elim
  | undefinedNonTerminal h1 h2 h3 h4 =>
    cases h' with
    | syntaxError k => exact absurd (hread h1) k
    | noStart k1 k2 k3 => exact (hstart h1 k1 k2 k3).elim
    | badRegex k k1 k2 => obtain ⟨rfl, rfl⟩ := h1.unique k; exact (hnone h2 k1 k2).elim
    | todo k _ k1 k2 k3 => obtain ⟨rfl, rfl⟩ := h1.unique k; exact (hfault h2 k1 k2 (.inl k3)).elim
    | emptyOperand k _ k1 k2 k3 => obtain ⟨rfl, rfl⟩ := h1.unique k; exact (hfault h2 k1 k2 (.inr k3)).elim
    | undefinedNonTerminal k k1 => exact .inl rfl
    | stackOverflow k k1 => exact .inr (.inr (by simp))
    | conflict k k1 k2 =>
      obtain ⟨rfl, rfl⟩ := h1.unique k
      obtain ⟨rhs, k⟩ := k2.defined _ h3
      exact absurd k (h4 rhs)
  | stackOverflow h1 h2 h3 h4 h5 =>
    cases h' with
    | syntaxError k => exact absurd (hread h1) k
    | noStart k1 k2 k3 => exact (hstart h1 k1 k2 k3).elim
    | badRegex k k1 k2 => obtain ⟨rfl, rfl⟩ := h1.unique k; exact (hnone h2 k1 k2).elim
    | todo k _ k1 k2 k3 => obtain ⟨rfl, rfl⟩ := h1.unique k; exact (hfault h2 k1 k2 (.inl k3)).elim
    | emptyOperand k _ k1 k2 k3 => obtain ⟨rfl, rfl⟩ := h1.unique k; exact (hfault h2 k1 k2 (.inr k3)).elim
    | undefinedNonTerminal k k1 => exact .inr (.inr (by simp))
    | stackOverflow k k1 => exact .inl rfl
    | conflict k k1 k2 => obtain ⟨rfl, rfl⟩ := h1.unique k; exact absurd h5 (k2.first _ _ h3 h4)
  | conflict h1 h2 h3 h4 h5 =>
    cases h' with
    | syntaxError k => exact absurd (hread h1) k
    | noStart k1 k2 k3 => exact (hstart h1 k1 k2 k3).elim
    | badRegex k k1 k2 => obtain ⟨rfl, rfl⟩ := h1.unique k; exact (hnone h2 k1 k2).elim
    | todo k _ k1 k2 k3 => obtain ⟨rfl, rfl⟩ := h1.unique k; exact (hfault h2 k1 k2 (.inl k3)).elim
    | emptyOperand k _ k1 k2 k3 => obtain ⟨rfl, rfl⟩ := h1.unique k; exact (hfault h2 k1 k2 (.inr k3)).elim
    | undefinedNonTerminal k _ k1 k2 =>
      obtain ⟨rfl, rfl⟩ := h1.unique k
      obtain ⟨rhs, k⟩ := h3.defined _ k1
      exact absurd k (k2 rhs)
    | stackOverflow k _ k1 k2 k3 => obtain ⟨rfl, rfl⟩ := h1.unique k; exact absurd k3 (h3.first _ _ k1 k2)
    | conflict k k1 => exact .inl rfl

/-- C64.  If there is a reason to stop, the program stops, with a panic of the step to which the reason
belongs. -/
theorem C64_must_stop (ho : Reorders ord) (hh : TextNoCollisions hash text) {e : Err} (h : Stops rx text e) :
    ∃ e', compile hash rx ord text = .error e' ∧ SameStep e e' := by
  cases hc : compile hash rx ord text with
  | error e' => exact ⟨e', rfl, stops_same h (C64_stops ho hh hc)⟩
  | ok out =>
    exfalso
    obtain ⟨ps, start, g, hr, hg, h1, h2, h3⟩ := (C64_writes (rx := rx) ho hh).mp ⟨out, hc⟩
    cases h with
    | syntaxError k =>
      obtain ⟨⟨ts, k1, k2⟩, _⟩ := hr
      exact k ⟨ts, ps, k1, k2⟩
    | noStart k1 k2 k3 =>
      have e := (C49_reads text _).mpr ⟨_, k1, k2⟩
      rw [hr.parsed] at e; cases e
      have k1 := k3 start (List.mem_of_find?_eq_some hr.2)
      have k2 := List.find?_some hr.2
      simp [k1] at k2
    | badRegex k k1 k2 =>
      obtain ⟨rfl, rfl⟩ := hr.unique k
      obtain ⟨_, k, _⟩ := h1 _ k1
      rw [k2] at k; cases k
    | todo k _ k1 k2 k3 =>
      obtain ⟨rfl, rfl⟩ := hr.unique k
      obtain ⟨_, k, k'⟩ := h1 _ k1
      rw [k2] at k; cases k
      exact k' (Nfa.unsupported_of (.inl k3))
    | emptyOperand k _ k1 k2 k3 =>
      obtain ⟨rfl, rfl⟩ := hr.unique k
      obtain ⟨_, k, k'⟩ := h1 _ k1
      rw [k2] at k; cases k
      exact k' (Nfa.unsupported_of (.inr k3))
    | undefinedNonTerminal k _ k1 k2 =>
      obtain ⟨rfl, rfl⟩ := hr.unique k
      obtain ⟨rhs, k⟩ := h2.defined _ k1
      exact absurd k (k2 rhs)
    | stackOverflow k _ k1 k2 k3 => obtain ⟨rfl, rfl⟩ := hr.unique k; exact absurd k3 (h2.first _ _ k1 k2)
    | conflict k _ _ k1 k2 =>
      obtain ⟨rfl, rfl⟩ := hr.unique k
      rw [hg] at k1; cases k1
      exact h3 k2

end

/-! ## Samples -/

/-- The characters of a string literal. -/
local macro "chars!" s:str : term => do
  let cs := s.getString.toList.map fun c => Lean.Syntax.mkCharLit c
  `([$(cs.toArray),*])

theorem textNoCollisions_id (text : Str) : TextNoCollisions id text := fun _ g _ _ => noCollisions_id g _

set_option maxRecDepth 20000 in
-- C64: files are written for the grammar of ts/basic_lisp.tlalr.
example : (∃ out, compile id lispRx (fun _ l => l) lispText = .ok out) ∧
    ∃ g, ReadsGrammar lispText lispAst (startOf lispAst) ∧ Grammar.fromAst lispAst = .ok g ∧ RegexesOk lispRx lispAst ∧
      Buildable (AstRule lispAst) (startOf lispAst).name ∧ ¬ Clash g := by
  have hr : ReadsGrammar lispText lispAst (startOf lispAst) := ⟨(C49_reads _ _).mp lisp_parse, startOf_eq (by decide +kernel)⟩
  have hw := (compile_eq (hash := id) (rx := lispRx) (ord := fun _ l => l) hr
    (ok_of_isSome (by decide +kernel) : Grammar.fromAst lispAst = .ok (lower lispAst))).2.mpr ⟨_, lisp_new⟩
  refine ⟨hw, ?_⟩
  obtain ⟨ps, start, g, h1, h2, h3⟩ := (C64_writes reorders_id (textNoCollisions_id _)).mp hw
  obtain ⟨rfl, rfl⟩ := hr.unique h1
  exact ⟨g, h1, h2, h3⟩

/-- Regexes of the samples below. -/
def stopRx (s : Str) : Option Hir :=
  if s = "^a".toList then some (.concat [.anchor, .lit 97]) else if s = "(a|)".toList then some (.alt [.lit 97, .empty]) else none

/-- One text for each reason to stop. -/
theorem C64_examples :
    compile id stopRx (fun _ l => l) (chars! "export start A") = .error .syntaxError ∧
    compile id stopRx (fun _ l => l) (chars! "export A: (x) = [\n\"a\" => (y)]") = .error .noStart ∧
    compile id stopRx (fun _ l => l) (chars! "export start A: (x) = [\nr\"(\" B => (y)]") = .error .badRegex ∧
    compile id stopRx (fun _ l => l) (chars! "export start A: (x) = [\nr\"^a\" B => (y)]") = .error .todo ∧
    compile id stopRx (fun _ l => l) (chars! "export start A: (x) = [\nr\"(a|)\" B => (y)]") = .error .optionUsizeNone ∧
    compile id stopRx (fun _ l => l) (chars! "export start A: (x) = [\n\"a\" B => (y)]") = .error .undefinedNonTerminal ∧
    compile id stopRx (fun _ l => l) (chars! "export start A: (x) = [\nB B => (y)]\nexport B: (x) = [\nB \"b\" => (y),\n\"c\" => (y)]") =
      .error .stackOverflow ∧
    compile id stopRx (fun _ l => l) (chars! "export start A: (x) = [\n\"a\" \"b\" => (y),\n\"a\" \"c\" => (y)]") = .error .conflict :=
  ⟨error_of (by decide +kernel), error_of (by decide +kernel), error_of (by decide +kernel), error_of (by decide +kernel),
    error_of (by decide +kernel), error_of (by decide +kernel), error_of (by decide +kernel), error_of (by decide +kernel)⟩

-- C64: the reasons are met.
example : Stops stopRx (chars! "export start A: (x) = [\nr\"^a\" B => (y)]") .todo ∧
    Stops stopRx (chars! "export start A: (x) = [\nB B => (y)]\nexport B: (x) = [\nB \"b\" => (y),\n\"c\" => (y)]") .stackOverflow :=
  ⟨C64_stops reorders_id (textNoCollisions_id _) C64_examples.2.2.2.1,
    C64_stops reorders_id (textNoCollisions_id _) C64_examples.2.2.2.2.2.2.1⟩

/-! ## C64 without a condition on the hash -/

section
variable {H : Type} [DecidableEq H] (hash : List Item → H) {rx : Str → Option Hir} {ord : Nfa.Order} {text : Str}
  {ps : List Ast.Prod} {start : Ast.Prod} {g : Grammar}

/-- The hash of cores plays no part before the tables are made. -/
theorem new_early {H' : Type} [DecidableEq H'] (hash' : List Item → H') (he : Expressible ps)
    (hst : ps.find? (fun p => p.isStart) = some start) (hg : Grammar.fromAst ps = .ok g) (ho : Reorders ord) :
    (∃ e, Lalr.new hash rx ord g = .error e ∧ Lalr.new hash' rx ord g = .error e) ∨
      RegexesOk rx ps ∧ Buildable (AstRule ps) start.name := by
  have ht := Grammar.regex_tokens he hg
  rcases Grammar.lexer_cases rx (reorders_ok ho) g with ⟨⟨L, hL⟩, hr⟩ | ⟨hL, _⟩ | ⟨e, _, _, hL, _⟩
  · cases hi : ItemSet.items g (Lalr.depthOf g) with
    | error e =>
      exact .inl ⟨e, by simp only [Lalr.new, Lalr.makeTables, hL, hi, bind, Except.bind],
        by simp only [Lalr.new, Lalr.makeTables, hL, hi, bind, Except.bind]⟩
    | ok c =>
      refine .inr ⟨fun r h => ?_, (C22_items_terminates he hst hg).2.mp ⟨c, hi⟩⟩
      obtain ⟨x, k1, k2⟩ := hr r ((ht r).mpr h)
      exact ⟨x, k1, supported_iff.mp k2⟩
  · exact .inl ⟨.badRegex, by simp only [Lalr.new, hL, bind, Except.bind], by simp only [Lalr.new, hL, bind, Except.bind]⟩
  · exact .inl ⟨e, by simp only [Lalr.new, hL, bind, Except.bind], by simp only [Lalr.new, hL, bind, Except.bind]⟩

/-- C64, for every hash of cores, also one with collisions: the program stops with the panic it would stop with if there were
no collisions, or the text is a grammar for which only the making of the tables can fail. -/
theorem C64_any_hash (ho : Reorders ord) :
    (∃ e, compile hash rx ord text = .error e ∧ Stops rx text e ∧ e ≠ .conflict) ∨
    ∃ ps start g, ReadsGrammar text ps start ∧ Grammar.fromAst ps = .ok g ∧ RegexesOk rx ps ∧
      Buildable (AstRule ps) start.name := by
  rcases reading_cases rx hash ord text with ⟨ps, start, hr⟩ | ⟨k, k1⟩ | ⟨k, ts, ps, k1, k2, k3⟩
  · obtain ⟨g, hg⟩ := hr.grammar
    obtain ⟨he, _⟩ := C51_expressible hr.parsed
    rcases new_early (rx := rx) hash (id : List Item → List Item) he hr.2 hg ho with ⟨e, h1, h2⟩ | ⟨h1, h2⟩
    · by_cases hc : RegexesOk rx ps ∧ Buildable (AstRule ps) start.name
      · exact .inr ⟨ps, start, g, hr, hg, hc⟩
      · refine .inl ⟨e, ((compile_eq hr hg).1 e).mpr h1, C64_stops ho (textNoCollisions_id text) (((compile_eq hr hg).1 e).mpr h2), ?_⟩
        rintro rfl
        have := C64_stops ho (textNoCollisions_id text) (((compile_eq hr hg).1 _).mpr h2)
        cases this with
        | conflict k1 k2 k3 _ _ =>
          obtain ⟨rfl, rfl⟩ := hr.unique k1
          exact hc ⟨k2, k3⟩
    · exact .inr ⟨ps, start, g, hr, hg, h1, h2⟩
  · exact .inl ⟨_, k, .syntaxError k1, by decide⟩
  · exact .inl ⟨_, k, .noStart k1 k2 k3, by decide⟩

/-- C64: if there is a reason to stop other than a conflict, the program stops, with a panic of the step to which the reason
belongs, whatever the hash of cores. -/
theorem C64_must_stop_any (ho : Reorders ord) {e : Err} (h : Stops rx text e) (hc : e ≠ .conflict) :
    ∃ e', compile hash rx ord text = .error e' ∧ SameStep e e' := by
  rcases C64_any_hash hash (rx := rx) (text := text) ho with ⟨e', h1, h2, _⟩ | ⟨ps, start, g, hr, hg, h1, h2⟩
  · exact ⟨e', h1, stops_same h h2⟩
  · exfalso
    by_cases hC : Clash g
    · rcases stops_same h (.conflict hr h1 h2 hg hC) with rfl | ⟨_, k⟩ | ⟨_, k⟩
      · exact hc rfl
      · simp at k
      · simp at k
    · obtain ⟨out, ho'⟩ := (C64_writes (rx := rx) ho (textNoCollisions_id text)).mpr ⟨ps, start, g, hr, hg, h1, h2, hC⟩
      obtain ⟨e', k, _⟩ := C64_must_stop ho (textNoCollisions_id text) h
      rw [ho'] at k; cases k

end

/-- The grammar of todo.md:11-26. -/
def todoText : Str :=
  chars! "export start Expr: ({ kind: \"Expr\", left: Expr, op: Op, right: Expr }) = [ \n     <l: Expr> <op: Op> <right: Expr> => ({ kind: \"Expr\", left: l, right: right, op: op })\n]\n\nexport Op: ({ kind: \"Op\", op: \"add\" | \"sub\" | \"div\" | \"mul\" }) = [ \n     <plus: \"+\"> => ({ kind: \"Op\", op: \"add\" }),\n     <sub: \"-\"> => ({ kind: \"Op\", op: \"sub\" }),\n     <div: \"/\"> => ({ kind: \"Op\", op: \"div\" }),\n     <mul: \"*\"> => ({ kind: \"Op\", op: \"mul\" }),\n]\n\nexport Num: ({ kind: \"Num\", value: string }) = [\n     <num: r\"[1-9][0-9]*\"> => ({ kind: \"Num\", value: num })\n]\n"

/-- The grammar of todo.md as productions. -/
def todoAst : List Ast.Prod := (parseGrammar todoText).toOption.getD []

set_option maxRecDepth 20000 in
/-- C64, C19: the grammar of todo.md makes the program overflow its stack, whatever the hash and the order of the maps, if
its regex can be parsed and contains only what is implemented. -/
theorem C64_todo {H : Type} [DecidableEq H] (hash : List Item → H) {rx : Str → Option Hir} {ord : Nfa.Order} (ho : Reorders ord)
    {x : Hir} (hx : rx "[1-9][0-9]*".toList = some x) (hs : ¬ Unsupported x) :
    compile hash rx ord todoText = .error .stackOverflow := by
  have hp : parseGrammar todoText = .ok todoAst := ok_of_isSome (d := []) (by decide +kernel)
  have hg : Grammar.fromAst todoAst = .ok (lower todoAst) := ok_of_isSome (by decide +kernel)
  have ht : ∀ r, Sym.regex r ∈ (lower todoAst).tokens → r = "[1-9][0-9]*".toList := by
    have : ∀ s ∈ (lower todoAst).tokens, (match s with | .regex r => decide (r = "[1-9][0-9]*".toList) | _ => true) = true := by
      decide +kernel
    intro r hr
    exact of_decide_eq_true (this _ hr)
  have hi : ItemSet.items (lower todoAst) (Lalr.depthOf (lower todoAst)) = .error .stackOverflow := error_of (by decide +kernel)
  rcases Grammar.lexer_cases rx (reorders_ok ho) (lower todoAst) with ⟨⟨L, hL⟩, _⟩ | ⟨_, r, h1, h2⟩ | ⟨e, r, h, _, _, h2, h3, h4⟩
  · simp only [compile, hp, hg, Lalr.new, Lalr.makeTables, hL, hi, bind, Except.bind]
  · rw [ht r h1, hx] at h2; cases h2
  · rw [ht r h2, hx] at h3; cases h3
    exact (hs (Nfa.unsupported_of (h4.imp And.right And.right))).elim

-- C64_todo, C64_any_hash: a regex as `regex-syntax` gives it, and a hash that keeps nothing apart.
example : compile (fun _ => ()) (fun _ => some (.concat [.cls [⟨49, 57⟩], .rep .zeroOrMore (.cls [⟨48, 57⟩])]))
      (fun _ l => l) todoText = .error .stackOverflow ∧
    ∃ e, compile (fun _ => ()) stopRx (fun _ l => l) (chars! "export start A: (x) = [\nr\"^a\" B => (y)]") = .error e ∧
      SameStep .todo e :=
  ⟨C64_todo _ reorders_id rfl ((C02_ok_iff _).mp ⟨_, ok_of_isSome (d := ⟨[], []⟩) (by decide +kernel)⟩),
    C64_must_stop_any _ reorders_id (C64_stops reorders_id (textNoCollisions_id _) C64_examples.2.2.2.1) (by decide)⟩

end Verif.Props
