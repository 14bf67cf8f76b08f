import Verif.Model.Trace
import Verif.Spec.Trace
import Verif.Spec.Run
import Verif.Proofs.Trees
import Verif.Proofs.ShowOk
import Verif.Proofs.ParseOk

/-! # Lemmas about what the parser prints (C93) -/

namespace Verif
open Spec Lalr

namespace Spec

theorem Rightmost.trans {R : Str → List Sym → Prop} {α β γ : List Sym} {rs rs' : List (Str × List Sym)}
    (h : Rightmost R α rs β) (h' : Rightmost R β rs' γ) : Rightmost R α (rs ++ rs') γ := by
  induction h with
  | done => exact h'
  | step h1 h2 _ ih => exact .step h1 h2 (ih h')

/-- The rule of a production. -/
def ruleOf (ps : List Production) (p : Nat) : Str × List Sym := (((ps[p]?).map (·.name)).getD [], ((ps[p]?).map (·.inputs)).getD [])

theorem Forest.rightmost {ps : List Production} : ∀ (f : Forest) (l t : List Sym), f.Valid ps → (∀ x ∈ t, IsTerm x) →
    Rightmost (Rule ps) (l ++ f.roots ps ++ t) (f.post.reverse.map (ruleOf ps)) (l ++ f.yield ++ t)
  | nil, l, t, _, _ => .done
  | leaf x rest, l, t, hv, ht => by
    have := Forest.rightmost rest (l ++ [x]) t hv.2 ht
    simpa [roots, yield, post] using this
  | node p kids rest, l, t, hv, ht => by
    obtain ⟨⟨prod, hp, hi⟩, hk, hr⟩ := hv
    have h1 := Forest.rightmost rest (l ++ [.nonTerm prod.name]) t hr ht
    have ht' : ∀ x ∈ rest.yield ++ t, IsTerm x := fun x hx => by
      rcases List.mem_append.mp hx with h | h
      · exact Forest.yield_term rest hr x h
      · exact ht x h
    have h2 := Forest.rightmost kids l (rest.yield ++ t) hk ht'
    have h3 : Rightmost (Rule ps) (l ++ .nonTerm prod.name :: (rest.yield ++ t)) ((prod.name, prod.inputs) :: kids.post.reverse.map (ruleOf ps))
        (l ++ kids.yield ++ (rest.yield ++ t)) :=
      .step ⟨prod, List.mem_of_getElem? hp, rfl, rfl⟩ ht' (by rw [hi]; exact h2)
    have h4 := Rightmost.trans (by simpa using h1) h3
    simpa [roots, yield, post, hp, ruleOf] using h4

/-- A derivation in the numbered productions that does not begin at the augmented symbol is one in the source. -/
theorem Rightmost.source {ps : List Ast.Prod} {g : Grammar} {start : Ast.Prod} (hok : Grammar.GOk g) (hg : Grammar.fromAst ps = .ok g)
    (hs : ps.find? (fun p => p.isStart) = some start) {α β : List Sym} {rs : List (Str × List Sym)}
    (h : Rightmost (Rule g.prods) α rs β) (hα : Sym.nonTerm g.augName ∉ α) : Rightmost (AstRule ps) α rs β := by
  induction h with
  | done => exact .done
  | @step l A rhs t rs β h1 h2 _ ih =>
    obtain ⟨p, hp, hn, hi⟩ := id h1
    have hf := hok.fresh p hp
    rcases (Grammar.rule_iff hg hs).mp h1 with ⟨rfl, _⟩ | h3
    · simp at hα
    · refine .step h3 h2 (ih ?_)
      simp only [List.mem_append, List.mem_cons, not_or] at hα ⊢
      exact ⟨⟨hα.1, hi ▸ hf⟩, hα.2.2⟩

theorem following_append (pre : Str) (a b : List Str) : following pre (a ++ b) = following pre a ++ following pre b := List.filterMap_append ..

theorem following_nil (pre : Str) : following pre [] = [] := rfl

end Spec

theorem Show.quoted_plain {w : Str} (hw : ∀ c ∈ w, c ≠ '"' ∧ c ≠ '\\' ∧ c ≠ '\n') : Show.quoted w = ['"'] ++ w ++ ['"'] := by
  rw [Show.quoted]
  congr 2
  induction w with
  | nil => rfl
  | cons c w ih =>
      obtain ⟨h1, h2, h3⟩ := hw c (by simp)
      rw [List.flatMap_cons, ih (fun x hx => hw x (List.mem_cons_of_mem _ hx)), if_neg h1, if_neg h2, if_neg h3]
      rfl

namespace Lalr
theorem run_error_lt {g : Grammar} {action : Table Nat Action} {got : Table Str Nat} {toks : List Nat} {e : Err} (he : e ≠ .outOfFuel) :
    ∀ (fuel : Nat) {st : PState}, run g action got toks fuel st = .error e →
      ∃ n, n < fuel ∧ ∃ st', Runs g action got toks n st st' ∧ step g action got toks st' = .error e
  | 0, _, h => by cases h; exact absurd rfl he
  | fuel + 1, st, h => by
    unfold run at h
    cases hs : step g action got toks st with
    | error e' => simp only [hs, Except.error.injEq] at h; subst h; exact ⟨0, Nat.succ_pos _, st, .refl, hs⟩
    | ok o =>
      cases o with
      | none => simp [hs] at h
      | some st1 =>
        simp only [hs] at h
        obtain ⟨n, hn, st', h1, h2⟩ := run_error_lt he fuel h
        exact ⟨n + 1, Nat.succ_lt_succ hn, st', .head hs h1, h2⟩
end Lalr

namespace Trace
variable {l : Lalr} {toks : List (Token × Nat)}

abbrev Step (l : Lalr) (toks : List (Token × Nat)) := Lalr.step l.grammar l.action l.goto (toks.map Prod.snd)

/-- What an iteration that goes on prints. -/
theorem printed_step {tok : Token} {st st' : PState} (h : Step l toks st = .ok (some st')) :
    following "STACK: ".toList (printed l tok st) = [stack st.stack] ∧
    following "LOOP COUNT: ".toList (printed l tok st) = [] ∧
    ((st'.i = st.i + 1 ∧ st'.out = st.out ∧ (following "  shifting ".toList (printed l tok st)).length = 1 ∧
        following "  reducing by ".toList (printed l tok st) = []) ∨
      (st'.i = st.i ∧ ∃ p prod, l.grammar.prods[p]? = some prod ∧ st'.out = st.out ++ [p] ∧
        following "  shifting ".toList (printed l tok st) = [] ∧
        following "  reducing by ".toList (printed l tok st) = [Show.production prod])) := by
  unfold Step Lalr.step at h
  unfold printed
  split at h <;> try cases h
  rename_i s tl hst
  split at h
  · rename_i j hj
    simp only [nextToken, Except.ok.injEq, Option.some.injEq] at h
    subst h
    simp only [hst, hj]
    exact ⟨by rw [← hst]; rfl, rfl, .inl ⟨trivial, trivial, rfl, rfl⟩⟩
  · rename_i p hp
    simp only [hst, hp]
    split at h <;> try cases h
    rename_i prod hprod
    split at h <;> try cases h
    rename_i hlt
    split at h <;> try cases h
    rename_i t rest hd
    split at h <;> try cases h
    rename_i j hj
    rw [hst] at hlt hd
    simp only [hprod, if_neg hlt, hd, hj]
    exact ⟨by rw [← hst]; rfl, rfl, .inr ⟨trivial, p, prod, hprod, rfl, rfl, rfl⟩⟩
  · cases h
  · cases h

/-- What the iterations of a run print. -/
theorem loop_runs {k : Nat} {st st' : PState} (h : Runs l.grammar l.action l.goto (toks.map Prod.snd) k st st') (hle : ∀ j st1,
    Runs l.grammar l.action l.goto (toks.map Prod.snd) j st st1 → st1.i < toks.length) :
    ∀ (tok : Token), (toks[st.i]?).map Prod.fst = some tok → ∃ tok' ls, (toks[st'.i]?).map Prod.fst = some tok' ∧
      (∀ fuel n, loop l toks (fuel + k) n tok st = (ls ++ (loop l toks fuel (n + k) tok' st').1, (loop l toks fuel (n + k) tok' st').2)) ∧
      (following "  shifting ".toList ls).length + st.i = st'.i ∧ (following "STACK: ".toList ls).length = k ∧
      (∀ j st1, j < k → Runs l.grammar l.action l.goto (toks.map Prod.snd) j st st1 → (following "STACK: ".toList ls)[j]? = some (stack st1.stack)) ∧
      following "LOOP COUNT: ".toList ls = [] ∧
      ∃ ds, st'.out = st.out ++ ds ∧ List.Forall₂ (fun p s => ∃ prod, l.grammar.prods[p]? = some prod ∧ s = Show.production prod) ds (following "  reducing by ".toList ls) := by
  induction h with
  | refl => exact fun tok ht => ⟨tok, [], ht, fun _ _ => rfl,
      by rw [following_nil]; exact Nat.zero_add _, by rw [following_nil]; rfl, fun j _ h => absurd h (Nat.not_lt_zero _), following_nil _, [],
      (List.append_nil _).symm, by rw [following_nil]; exact .nil⟩
  | @head k st st1 st2 hs hr ih =>
    intro tok ht
    obtain ⟨h1, h2, h3⟩ := printed_step (tok := tok) hs
    have hi1 : st1.i < toks.length := hle 1 st1 (.head hs .refl)
    have ht1 : (toks[st1.i]?).map Prod.fst = some (nextTok toks tok st st1) := by
      unfold nextTok
      split
      · rename_i he; rw [he, ht]
      · rw [List.getElem?_eq_getElem hi1]; rfl
    obtain ⟨tok', ls, g0, g1, g2, g3, g4, g5, ds, g6, g7⟩ := ih (fun j st1 h => hle (j + 1) st1 (.head hs h)) _ ht1
    refine ⟨tok', printed l tok st ++ ls, g0, fun fuel n => ?_, ?_, ?_, ?_, ?_, ?_⟩
    · rw [← Nat.add_assoc]
      have h5 : loop l toks (fuel + k + 1) n tok st = (printed l tok st ++ (loop l toks (fuel + k) (n + 1) (nextTok toks tok st st1) st1).1,
          (loop l toks (fuel + k) (n + 1) (nextTok toks tok st st1) st1).2) := by rw [loop, hs]
      rw [h5]
      simp only [g1, List.append_assoc, Nat.add_assoc, Nat.add_comm 1 k]
    · rw [following_append, List.length_append]
      rcases h3 with ⟨a, _, b, _⟩ | ⟨a, _, _, _, _, b, _⟩
      · omega
      · rw [b]; simp only [List.length_nil]; omega
    · rw [following_append, h1, List.length_append, g3]; simp [Nat.add_comm]
    · intro j stj hj hrj
      rw [following_append, h1]
      cases hrj with
      | refl => rfl
      | head hs' hr' =>
        rw [hs] at hs'; cases hs'
        simpa using g4 _ _ (by omega) hr'
    · rw [following_append, h2, g5, List.append_nil]
    · rw [following_append]
      rcases h3 with ⟨_, a, _, b⟩ | ⟨_, p, prod, hp, a, _, b⟩
      · exact ⟨ds, by rw [g6, a], by rw [b]; exact g7⟩
      · exact ⟨p :: ds, by rw [g6, a]; simp, by rw [b]; exact .cons ⟨prod, hp, rfl⟩ g7⟩

/-- What the accepting iteration prints. -/
theorem printed_accept {tok : Token} {st : PState} (h : Step l toks st = .ok none) :
    following "STACK: ".toList (printed l tok st) = [stack st.stack] ∧ following "LOOP COUNT: ".toList (printed l tok st) = [] ∧
    following "  shifting ".toList (printed l tok st) = [] ∧ following "  reducing by ".toList (printed l tok st) = [] := by
  unfold Step Lalr.step at h
  unfold printed
  split at h <;> try cases h
  rename_i s tl hst
  split at h
  · cases h
  · split at h <;> try cases h
    split at h <;> try cases h
    split at h <;> try cases h
    split at h <;> try cases h
  · rename_i hj
    simp only [hst, hj]
    exact ⟨by rw [← hst]; rfl, rfl, rfl, rfl⟩
  · cases h

/-- What the iteration with the invalid token prints. -/
theorem printed_invalid {tok : Token} {st : PState} (h : Step l toks st = .error .invalidToken) :
    following "STACK: ".toList (printed l tok st) = [stack st.stack] ∧ following "LOOP COUNT: ".toList (printed l tok st) = [] ∧
    following "  shifting ".toList (printed l tok st) = [] ∧ following "  reducing by ".toList (printed l tok st) = [] := by
  unfold Step Lalr.step at h
  unfold printed
  split at h <;> try cases h
  rename_i s tl hst
  split at h
  · cases h
  · split at h <;> try cases h
    split at h <;> try cases h
    split at h <;> try cases h
    split at h <;> try cases h
  · cases h
  · rename_i hj
    simp only [hst, hj]
    exact ⟨by rw [← hst]; rfl, rfl, rfl, rfl⟩

/-- What an iteration prints first. -/
theorem loop_head {tok : Token} {st : PState} {fuel n : Nat} (h : st.stack ≠ []) :
    ∃ r, following "STACK: ".toList (loop l toks (fuel + 1) n tok st).1 = stack st.stack :: r := by
  have hp : ∃ ys, printed l tok st = ("STACK: ".toList ++ stack st.stack) :: ys := by
    unfold printed
    split
    · exact absurd ‹_› h
    · exact ⟨_, rfl⟩
  obtain ⟨ys, hp⟩ := hp
  have hl : ∃ zs, (loop l toks (fuel + 1) n tok st).1 = ("STACK: ".toList ++ stack st.stack) :: zs := by
    rw [loop]
    split
    all_goals simp only [hp]
    all_goals exact ⟨_, rfl⟩
  obtain ⟨zs, hl⟩ := hl
  exact ⟨following "STACK: ".toList zs, by rw [hl]; rfl⟩

theorem join_eq (sep : Str) : ∀ es : List Str, LexGen.join sep es = sep.intercalate es
  | [] => rfl
  | [s] => by simp [LexGen.join, List.intercalate]
  | s :: t :: ss => by
    rw [LexGen.join, join_eq sep (t :: ss)]
    simp [List.intercalate]

theorem stack_listed (st : List Nat) : Listed st.reverse (stack st) := by
  unfold Listed stack list
  rw [join_eq, show LexGen.digits = fun n => n.repr.toList from funext Show.digits_eq]
  rfl

/-- What an iteration prints, line by line. -/
theorem printed_lines {tok : Token} {st : PState} {r : Res (Option PState)} (h : Step l toks st = r)
    (hr : r ≠ .error .stackEmpty) :
    ∃ hd, Heads st.stack.reverse st.a (token tok) st.i hd ∧
      (∀ st', r = .ok (some st') →
        (∃ j, st'.stack = j :: st.stack ∧ printed l tok st = hd ++ ["  shifting ".toList ++ j.repr.toList]) ∨
        ∃ p prod j s, l.grammar.prods[p]? = some prod ∧ st'.out = st.out ++ [p] ∧
          st'.stack = j :: st.stack.drop prod.inputs.length ∧ Listed st'.stack.reverse s ∧
          printed l tok st = hd ++ ["  reducing by ".toList ++ Show.production prod,
            "  pushing (".toList ++ j.repr.toList ++ ") => STACK: ".toList ++ s]) ∧
      (r = .ok none → printed l tok st = hd ++ ["Accepting!".toList]) ∧
      (r = .error .invalidToken → printed l tok st = hd) ∧
      (r = .error .gotoEmpty → ∃ top tl p prod, st.stack = top :: tl ∧ l.action.tryIndex top st.a = some (.reduce p) ∧
        l.grammar.prods[p]? = some prod ∧ printed l tok st = hd ++ ["  reducing by ".toList ++ Show.production prod]) := by
  subst h
  cases hst : st.stack with
  | nil =>
    exact absurd (by unfold Step Lalr.step; rw [hst]) hr
  | cons s tl =>
    refine ⟨head tok s st, ⟨tl.reverse, s, stack st.stack, by simp, by rw [← hst]; exact stack_listed _, ?_⟩, ?_, ?_, ?_, ?_⟩
    · rw [← Show.digits_eq, ← Show.digits_eq, ← Show.digits_eq]; rfl
    · intro st' h
      unfold Step Lalr.step at h
      unfold printed
      simp only [hst] at h
      split at h
      · rename_i j hj
        simp only [nextToken, Except.ok.injEq, Option.some.injEq] at h
        subst h
        simp only [hst, hj]
        exact .inl ⟨j, rfl, by rw [← Show.digits_eq]⟩
      · rename_i p hp
        simp only [hst, hp]
        split at h <;> try cases h
        rename_i prod hprod
        split at h <;> try cases h
        rename_i hlt
        split at h <;> try cases h
        rename_i t rest hd
        split at h <;> try cases h
        rename_i j hj
        simp only [hprod, if_neg hlt, hd, hj]
        exact .inr ⟨p, prod, j, stack (j :: t :: rest), hprod, rfl, by rw [hd], stack_listed _, by rw [← Show.digits_eq]⟩
      · cases h
      · cases h
    · intro h
      unfold Step Lalr.step at h
      unfold printed
      simp only [hst] at h
      split at h
      · cases h
      · split at h <;> try cases h
        split at h <;> try cases h
        split at h <;> try cases h
        split at h <;> cases h
      · rename_i hp
        simp only [hst, hp]
      · cases h
    · intro h
      unfold Step Lalr.step at h
      unfold printed
      simp only [hst] at h
      split at h
      · cases h
      · split at h <;> try cases h
        split at h <;> try cases h
        split at h <;> try cases h
        split at h <;> cases h
      · cases h
      · rename_i hp
        simp only [hst, hp, List.append_nil]
    · intro h
      unfold Step Lalr.step at h
      unfold printed
      simp only [hst] at h
      split at h
      · cases h
      · rename_i p hp
        split at h <;> try cases h
        rename_i prod hprod
        split at h <;> try cases h
        rename_i hlt
        split at h <;> try cases h
        rename_i t rest hd
        split at h <;> try cases h
        rename_i hj
        refine ⟨s, tl, p, prod, rfl, hp, hprod, ?_⟩
        simp only [hst, hp, hprod, if_neg hlt, hd, hj]
      · cases h
      · cases h

end Trace
end Verif
