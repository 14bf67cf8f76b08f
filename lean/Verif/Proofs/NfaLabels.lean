import Verif.Proofs.NfaSim

/-! The labels of a compiled automaton are the ranges of its regex. -/

namespace Verif
open Spec

namespace Nfa

/-- `m` labels some edge. -/
def Lab (n : Nfa) (m : Match) : Prop := ∃ e ∈ n.edges, e.label = some m

@[simp] theorem lab_pushState {n : Nfa} {m} : n.pushState.Lab m ↔ n.Lab m := Iff.rfl

@[simp] theorem lab_pushEdge {n : Nfa} {s l t m} :
    (n.pushEdge s l t).Lab m ↔ n.Lab m ∨ l = some m := by
  simp [Lab, pushEdge, or_and_right, exists_or]

@[simp] theorem lab_pushEps {i m} : ∀ {ts : List Nat} {n : Nfa}, (pushEps i ts n).Lab m ↔ n.Lab m
  | [], n => Iff.rfl
  | t :: ts, n => by simp [pushEps, lab_pushEps (ts := ts)]

theorem lab_compileMatches {f m} : ∀ {ms : List Match} {n : Nfa},
    (compileMatches f ms n).1.Lab m ↔ n.Lab m ∨ m ∈ ms
  | [], n => by simp [compileMatches]
  | x :: ms, n => by
    simp [compileMatches, compileMatch, lab_compileMatches (ms := ms)]
    grind

mutual
theorem lab_compile (m : Match) : ∀ (h : Hir) (n : Nfa) (a : Nat) (n' : Nfa) (r : Option Nat),
    compile h n a = .ok (n', r) → (n'.Lab m ↔ n.Lab m ∨ m ∈ ranges h)
  | .empty, n, a, n', r, h => by simp [compile] at h; simp [← h.1, ranges]
  | .lit c, n, a, n', r, h => by
    simp [compile, compileMatch] at h
    simp [← h.1, ranges, Match.char]; grind
  | .cls rs, n, a, n', r, h => by
    simp only [compile, Except.ok.injEq, Prod.mk.injEq] at h
    rw [← h.1]
    simp [lab_compileMatches, ranges, classMatch]
  | .anchor, _, _, _, _, h => by simp [compile] at h
  | .wordBoundary, _, _, _, _, h => by simp [compile] at h
  | .rep .range _, _, _, _, _, h => by simp [compile] at h
  | .rep .zeroOrOne h, n, a, n', r, hc => by
    simp only [compile] at hc
    cases h1 : compile h n.pushState n.states.length with
    | error e => simp [h1, bind, Except.bind] at hc
    | ok p =>
      have ih := lab_compile m h _ _ _ _ (show compile h n.pushState n.states.length = .ok (p.1, p.2) from h1)
      cases h2 : unwrapO p.2 with
      | error e => simp [h1, h2, bind, Except.bind] at hc
      | ok s =>
        simp [h1, h2, bind, Except.bind, pure, Except.pure] at hc
        rw [← hc.1]; simp [ih, ranges]
  | .rep .zeroOrMore h, n, a, n', r, hc => by
    simp only [compile] at hc
    cases h1 : compile h n.pushState n.states.length with
    | error e => simp [h1, bind, Except.bind] at hc
    | ok p =>
      have ih := lab_compile m h _ _ _ _ (show compile h n.pushState n.states.length = .ok (p.1, p.2) from h1)
      cases h2 : unwrapO p.2 with
      | error e => simp [h1, h2, bind, Except.bind] at hc
      | ok s =>
        simp [h1, h2, bind, Except.bind, pure, Except.pure] at hc
        rw [← hc.1]; simp [ih, ranges]
  | .rep .oneOrMore h, n, a, n', r, hc => by
    simp only [compile] at hc
    cases h1 : compile h n.pushState n.states.length with
    | error e => simp [h1, bind, Except.bind] at hc
    | ok p =>
      have ih := lab_compile m h _ _ _ _ (show compile h n.pushState n.states.length = .ok (p.1, p.2) from h1)
      cases h2 : unwrapO p.2 with
      | error e => simp [h1, h2, bind, Except.bind] at hc
      | ok s =>
        simp [h1, h2, bind, Except.bind, pure, Except.pure] at hc
        rw [← hc.1]; simp [ih, ranges]
  | .group h, n, a, n', r, hc => by
    simp only [compile] at hc
    simp [lab_compile m h _ _ _ _ hc, ranges]
  | .concat hs, n, a, n', r, hc => by
    simp only [compile] at hc
    cases h1 : compileConcat hs n a with
    | error e => simp [h1, bind, Except.bind] at hc
    | ok p =>
      simp [h1, bind, Except.bind, pure, Except.pure] at hc
      have ih := lab_compileConcat m hs n a p.1 p.2 h1
      rw [← hc.1]; simp [ih, ranges]
  | .alt hs, n, a, n', r, hc => by
    simp only [compile] at hc
    cases h1 : compileAlts hs (n.pushState.pushEdge n.states.length none a).pushState n.states.length with
    | error e => simp [h1, bind, Except.bind] at hc
    | ok p =>
      have ih := lab_compileAlts m hs _ _ p.1 p.2 h1
      cases h2 : unwrapAll p.2 with
      | error e => simp [h1, h2, bind, Except.bind] at hc
      | ok s =>
        simp [h1, h2, bind, Except.bind, pure, Except.pure] at hc
        rw [← hc.1]; simp [ih, ranges]
theorem lab_compileConcat (m : Match) : ∀ (hs : List Hir) (n : Nfa) (a : Nat) (n' : Nfa) (i : Nat),
    compileConcat hs n a = .ok (n', i) → (n'.Lab m ↔ n.Lab m ∨ m ∈ rangesAll hs)
  | [], n, a, n', i, hc => by simp [compileConcat] at hc; simp [← hc.1, rangesAll]
  | h :: hs, n, a, n', i, hc => by
    simp only [compileConcat] at hc
    cases h1 : compileConcat hs n a with
    | error e => simp [h1, bind, Except.bind] at hc
    | ok p =>
      have ih := lab_compileConcat m hs n a p.1 p.2 h1
      simp [h1, bind, Except.bind] at hc
      cases h2 : compile h p.1 p.2 with
      | error e => simp [h2] at hc
      | ok q =>
        have ih2 := lab_compile m h _ _ q.1 q.2 h2
        cases h3 : unwrapO q.2 with
        | error e => simp [h2, h3] at hc
        | ok s =>
          simp [h2, h3, pure, Except.pure] at hc
          rw [← hc.1, ih2, ih]; simp [rangesAll]; grind
theorem lab_compileAlts (m : Match) : ∀ (hs : List Hir) (n : Nfa) (a : Nat) (n' : Nfa)
    (os : List (Option Nat)), compileAlts hs n a = .ok (n', os) →
    (n'.Lab m ↔ n.Lab m ∨ m ∈ rangesAll hs)
  | [], n, a, n', i, hc => by simp [compileAlts] at hc; simp [← hc.1, rangesAll]
  | h :: hs, n, a, n', i, hc => by
    simp only [compileAlts] at hc
    cases h2 : compile h n a with
    | error e => simp [h2, bind, Except.bind] at hc
    | ok q =>
      have ih2 := lab_compile m h _ _ q.1 q.2 h2
      simp [h2, bind, Except.bind] at hc
      cases h1 : compileAlts hs q.1 a with
      | error e => simp [h1] at hc
      | ok p =>
        have ih := lab_compileAlts m hs _ _ p.1 p.2 h1
        simp [h1, pure, Except.pure] at hc
        rw [← hc.1, ih, ih2]; simp [rangesAll]; grind
end

theorem lab_fromRegex {h : Hir} {n : Nfa} (hn : fromRegex h = .ok n) (m : Match) :
    n.Lab m ↔ m ∈ ranges h := by
  unfold fromRegex at hn
  cases h1 : compile h init FINAL with
  | error e => simp [h1, bind, Except.bind] at hn
  | ok p =>
    simp [h1, bind, Except.bind, pure, Except.pure] at hn
    rw [← hn]
    simp [lab_compile m h _ _ p.1 p.2 h1]
    simp [Lab, init]

theorem mem_labels {n : Nfa} (hw : n.WF) {m : Match} : m ∈ n.labels ↔ n.Lab m := by
  have : n.labels = n.visible.filterMap NEdge.label := by
    simp [labels, visible, List.filterMap_flatMap]
  rw [this]
  simp only [List.mem_filterMap, Lab, mem_visible_wf hw]

end Nfa
end Verif
