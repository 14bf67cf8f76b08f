import Verif.Proofs.NfaCompile
import Verif.Proofs.Order
import Mathlib.Tactic.Tauto
import Mathlib.Data.List.TakeWhile

/-! Facts about `from_regex`, epsilon closure and simulation. -/

namespace Verif
open Spec

namespace Nfa

/-! ## Which regexes compile -/

theorem not_bare_rep {k h} : ¬ BareEmpty (.rep k h) := by intro h; cases h
theorem not_bare_concat {hs} : ¬ BareEmpty (.concat hs) := by intro h; cases h
theorem not_bare_alt {hs} : ¬ BareEmpty (.alt hs) := by intro h; cases h

theorem bare_group {h : Hir} : BareEmpty (.group h) ↔ BareEmpty h :=
  ⟨fun hb => by cases hb; assumption, .group⟩

mutual
theorem compile_ok : ∀ (h : Hir), Supported h → ∀ (n : Nfa) (a : Nat),
    ∃ n' r, compile h n a = .ok (n', r) ∧ (r = none ↔ BareEmpty h)
  | .empty, _, n, a => ⟨n, none, rfl, by simp [BareEmpty.empty]⟩
  | .lit c, _, n, a => ⟨_, _, rfl, by simp; intro h; cases h⟩
  | .cls rs, _, n, a => ⟨_, _, rfl, by simp; intro h; cases h⟩
  | .anchor, h, _, _ => by cases h
  | .wordBoundary, h, _, _ => by cases h
  | .rep k h, hs, n, a => by
    cases hs with
    | rep hk hh hb =>
      obtain ⟨n', r, h1, h2⟩ := compile_ok h hh n.pushState n.states.length
      cases r with
      | none => exact absurd (h2.mp rfl) hb
      | some i =>
        cases k <;> simp_all [compile, bind, Except.bind, unwrapO, pure, Except.pure, not_bare_rep] <;>
          exact ⟨_, _, ⟨rfl, rfl⟩, by simp⟩
  | .group h, hs, n, a => by
    cases hs with
    | group hh =>
      obtain ⟨n', r, h1, h2⟩ := compile_ok h hh n a
      exact ⟨n', r, by simpa [compile] using h1, h2.trans bare_group.symm⟩
  | .concat hs, h, n, a => by
    cases h with
    | concat h1 h2 =>
      obtain ⟨n', i, h⟩ := compileConcat_ok hs h1 h2 n a
      exact ⟨n', some i, by simp [compile, h, bind, Except.bind, pure, Except.pure],
        by simp [not_bare_concat]⟩
  | .alt hs, h, n, a => by
    cases h with
    | alt h1 h2 =>
      obtain ⟨n', os, ts, h, hu⟩ := compileAlts_ok hs h1 h2
        (n.pushState.pushEdge n.states.length none a).pushState n.states.length
      exact ⟨_, some _, by simp only [compile, h, hu, bind, Except.bind, pure, Except.pure]; rfl,
        by simp [not_bare_alt]⟩
theorem compileConcat_ok : ∀ (hs : List Hir), (∀ h ∈ hs, Supported h) → (∀ h ∈ hs, ¬ BareEmpty h) →
    ∀ (n : Nfa) (a : Nat), ∃ n' i, compileConcat hs n a = .ok (n', i)
  | [], _, _, n, a => ⟨n, a, rfl⟩
  | h :: hs, h1, h2, n, a => by
    obtain ⟨n1, i, hc⟩ := compileConcat_ok hs (fun x hx => h1 x (by simp [hx]))
      (fun x hx => h2 x (by simp [hx])) n a
    obtain ⟨n2, r, hc2, hr⟩ := compile_ok h (h1 h (by simp)) n1 i
    cases r with
    | none => exact absurd (hr.mp rfl) (h2 h (by simp))
    | some j => exact ⟨n2, j, by simp [compileConcat, hc, hc2, bind, Except.bind, unwrapO, pure, Except.pure]⟩
theorem compileAlts_ok : ∀ (hs : List Hir), (∀ h ∈ hs, Supported h) → (∀ h ∈ hs, ¬ BareEmpty h) →
    ∀ (n : Nfa) (a : Nat), ∃ n' os ts, compileAlts hs n a = .ok (n', os) ∧ unwrapAll os = .ok ts
  | [], _, _, n, a => ⟨n, [], [], rfl, rfl⟩
  | h :: hs, h1, h2, n, a => by
    obtain ⟨n2, r, hc2, hr⟩ := compile_ok h (h1 h (by simp)) n a
    obtain ⟨n1, os, ts, hc, hu⟩ := compileAlts_ok hs (fun x hx => h1 x (by simp [hx]))
      (fun x hx => h2 x (by simp [hx])) n2 a
    cases r with
    | none => exact absurd (hr.mp rfl) (h2 h (by simp))
    | some j =>
      exact ⟨n1, some j :: os, j :: ts, by simp [compileAlts, hc, hc2, bind, Except.bind, pure, Except.pure],
        by simp [unwrapAll, unwrapO, hu, bind, Except.bind, pure, Except.pure]⟩
end

mutual
theorem supported_of_ok : ∀ (h : Hir) (n : Nfa) (a : Nat) (n' : Nfa) (r : Option Nat),
    compile h n a = .ok (n', r) → Supported h
  | .empty, _, _, _, _, _ => .empty
  | .lit c, _, _, _, _, _ => .lit c
  | .cls rs, _, _, _, _, _ => .cls rs
  | .anchor, _, _, _, _, h => by simp [compile] at h
  | .wordBoundary, _, _, _, _, h => by simp [compile] at h
  | .rep k h, n, a, n', r, hc => by
    by_cases hk : k = .range
    · subst hk; simp [compile] at hc
    cases h1 : compile h n.pushState n.states.length with
    | error e => cases k <;> simp_all [compile, bind, Except.bind]
    | ok p =>
      obtain ⟨n1, r1⟩ := p
      have hs := supported_of_ok h _ _ _ _ h1
      cases r1 with
      | none => cases k <;> simp_all [compile, bind, Except.bind, unwrapO]
      | some i =>
        refine .rep hk hs ?_
        obtain ⟨n2, r2, h2, h3⟩ := compile_ok h hs n.pushState n.states.length
        rw [h1] at h2
        simp only [Except.ok.injEq, Prod.mk.injEq] at h2
        rw [← h3, ← h2.2]; simp
  | .group h, n, a, n', r, hc => .group (supported_of_ok h n a n' r (by simpa [compile] using hc))
  | .concat hs, n, a, n', r, hc => by
    simp only [compile] at hc
    cases h1 : compileConcat hs n a with
    | error e => simp [h1, bind, Except.bind] at hc
    | ok p =>
      have := supportedConcat_of_ok hs n a p.1 p.2 h1
      exact .concat (fun h hh => (this h hh).1) (fun h hh => (this h hh).2)
  | .alt hs, n, a, n', r, hc => by
    simp only [compile] at hc
    cases h1 : compileAlts hs (n.pushState.pushEdge n.states.length none a).pushState
        n.states.length with
    | error e => simp [h1, bind, Except.bind] at hc
    | ok p =>
      cases h2 : unwrapAll p.2 with
      | error e => simp [h1, h2, bind, Except.bind] at hc
      | ok ts =>
        have := supportedAlts_of_ok hs _ _ p.1 p.2 ts h1 h2
        exact .alt (fun h hh => (this h hh).1) (fun h hh => (this h hh).2)
theorem supportedConcat_of_ok : ∀ (hs : List Hir) (n : Nfa) (a : Nat) (n' : Nfa) (i : Nat),
    compileConcat hs n a = .ok (n', i) → ∀ h ∈ hs, Supported h ∧ ¬ BareEmpty h
  | [], _, _, _, _, _ => by simp
  | h :: hs, n, a, n', i, hc => by
    simp only [compileConcat] at hc
    cases h1 : compileConcat hs n a with
    | error e => simp [h1, bind, Except.bind] at hc
    | ok p =>
      obtain ⟨n1, m⟩ := p
      simp only [h1, bind, Except.bind] at hc
      cases h2 : compile h n1 m with
      | error e => simp [h2] at hc
      | ok q =>
        obtain ⟨n2, r⟩ := q
        have hs1 := supported_of_ok h _ _ _ _ h2
        have hb : ¬ BareEmpty h := by
          obtain ⟨n3, r3, h3, h4⟩ := compile_ok h hs1 n1 m
          rw [h2] at h3
          simp only [Except.ok.injEq, Prod.mk.injEq] at h3
          rw [← h4, ← h3.2]
          rintro rfl
          simp [h2, unwrapO] at hc
        intro x hx
        rcases List.mem_cons.mp hx with rfl | hx
        · exact ⟨hs1, hb⟩
        · exact supportedConcat_of_ok hs n a _ _ h1 x hx
theorem supportedAlts_of_ok : ∀ (hs : List Hir) (n : Nfa) (a : Nat) (n' : Nfa)
    (os : List (Option Nat)) (ts : List Nat), compileAlts hs n a = .ok (n', os) →
    unwrapAll os = .ok ts → ∀ h ∈ hs, Supported h ∧ ¬ BareEmpty h
  | [], _, _, _, _, _, _, _ => by simp
  | h :: hs, n, a, n', os, ts, hc, hu => by
    simp only [compileAlts] at hc
    cases h1 : compile h n a with
    | error e => simp [h1, bind, Except.bind] at hc
    | ok p =>
      obtain ⟨n1, r⟩ := p
      simp only [h1, bind, Except.bind] at hc
      cases h2 : compileAlts hs n1 a with
      | error e => simp [h2] at hc
      | ok q =>
        obtain ⟨n2, os'⟩ := q
        simp only [h2, pure, Except.pure, Except.ok.injEq, Prod.mk.injEq] at hc
        obtain ⟨rfl, rfl⟩ := hc
        have hs1 := supported_of_ok h _ _ _ _ h1
        have hr : r ≠ none := by
          rintro rfl
          simp [unwrapAll, unwrapO, bind, Except.bind] at hu
        have hb : ¬ BareEmpty h := by
          obtain ⟨n3, r3, h3, h4⟩ := compile_ok h hs1 n a
          rw [h1] at h3
          simp only [Except.ok.injEq, Prod.mk.injEq] at h3
          rw [← h4, ← h3.2]
          exact hr
        obtain ⟨ts', hu'⟩ : ∃ ts', unwrapAll os' = .ok ts' := by
          cases r with
          | none => exact absurd rfl hr
          | some j =>
            simp only [unwrapAll, unwrapO, bind, Except.bind] at hu
            cases hx : unwrapAll os' with
            | error e => simp [hx] at hu
            | ok ts' => exact ⟨_, rfl⟩
        intro x hx
        rcases List.mem_cons.mp hx with rfl | hx
        · exact ⟨hs1, hb⟩
        · exact supportedAlts_of_ok hs n1 a _ _ ts' h2 hu' x hx
end

theorem compile_ok_iff (h : Hir) (n : Nfa) (a : Nat) :
    (∃ p, compile h n a = .ok p) ↔ Supported h :=
  ⟨fun ⟨p, hp⟩ => supported_of_ok h n a p.1 p.2 hp,
   fun hs => by obtain ⟨n', r, h1, _⟩ := compile_ok h hs n a; exact ⟨_, h1⟩⟩

/-! ## `from_regex` -/

theorem bare_matches {h : Hir} (hb : BareEmpty h) (w : List Char) : Matches h w ↔ w = [] := by
  induction hb with
  | empty => exact ⟨fun hm => by cases hm; rfl, fun hw => hw ▸ .empty⟩
  | group _ ih => exact ⟨fun hm => by cases hm with | group h => exact ih.mp h, fun hw => .group (ih.mpr hw)⟩

theorem bare_next {h : Hir} (hb : BareEmpty h) (w : List Char) (m : Match) : ¬ Next h w m := by
  induction hb with
  | empty => intro h; cases h
  | group _ ih => intro h; cases h with | group h => exact ih h

theorem wf_init : init.WF := by
  intro s
  unfold Adj init
  rcases s with _ | _ | s <;> simp

/-- What `from_regex` builds. -/
structure Good (n : Nfa) (L : List Char → Prop) (K : List Char → Match → Prop) (V : Prop) : Prop where
  wf : n.WF
  len : 2 ≤ n.states.length
  acc : ∀ s x, n.states[s]? = some x → (x.acc = true ↔ s = 1)
  bound : ∀ e ∈ n.edges, e.src < n.states.length ∧ e.dst < n.states.length
  into : ∀ e ∈ n.edges, e.dst ≠ 0
  out : ∀ e ∈ n.edges, e.src ≠ 1
  lang : ∀ w, Path n.edges 0 w 1 ↔ L w
  next : ∀ w e m, e ∈ n.edges → e.label = some m → Path n.edges 0 w e.src → K w m
  hit : ∀ w m, K w m → ∃ e ∈ n.edges, e.label = some m ∧ Path n.edges 0 w e.src
  co : V → ∀ s < n.states.length, ∃ w, Path n.edges s w 1

theorem fromRegex_good {h : Hir} {n : Nfa} (hc : fromRegex h = .ok n) :
    n.Good (Matches h) (Next h) (NonVoid h) := by
  unfold fromRegex at hc
  cases h1 : compile h init FINAL with
  | error e => simp [h1, bind, Except.bind] at hc
  | ok p =>
    obtain ⟨n1, r⟩ := p
    simp only [h1, bind, Except.bind, pure, Except.pure, Except.ok.injEq] at hc
    subst hc
    have hf := compile_frag h init FINAL n1 r h1 (by simp [init, FINAL])
    -- uniform: an extension with entry `i`
    have key : ∃ es i, r.getD FINAL = i ∧ Frag init n1 i FINAL es (Matches h) (Next h) (NonVoid h) := by
      cases r with
      | none =>
        obtain ⟨rfl, hb⟩ := hf
        exact ⟨[], 1, rfl, (Frag.nil init 1 _).imp (fun w => (bare_matches hb w).symm)
          (fun w m => ⟨False.elim, bare_next hb w m⟩) id⟩
      | some i => obtain ⟨es, hf⟩ := hf; exact ⟨es, i, rfl, hf⟩
    obtain ⟨es, i, hi, f⟩ := key
    rw [hi]
    clear hf hi h1
    have hlen := f.ext.len
    have hd := f.dst
    have he := f.entry
    have hs := f.ext.src
    have hedges := f.ext.edges
    have ilen : init.states.length = 2 := rfl
    have iedges : init.edges = [] := rfl
    rw [ilen] at hlen hd he hs
    rw [iedges, List.nil_append] at hedges
    have ho : n1.Open START := open_ext f.ext (by simp [START, ilen]) (by simp [START, ilen]) rfl
    have hF : FINAL = 1 := rfl
    have hS : START = 0 := rfl
    rw [hF] at hd he
    have hE : (n1.pushEdge START none i).edges = es ++ [⟨0, none, i⟩] := by simp [hedges, START]
    have r1 : ∀ s w, s ≠ 0 → (Path (es ++ [⟨0, none, i⟩]) s w 1 ↔ Path es s w 1) := by
      intro s w hs0
      constructor
      · intro p
        refine Path.restrict (P := fun s => s ≠ 0) ?_ hs0 p
        intro e he' hne
        rcases List.mem_append.mp he' with he' | he'
        · exact ⟨he', by have := hd e he'; omega⟩
        · simp at he'; subst he'; simp at hne
      · exact fun p => p.mono (by simp_all)
    have ri : ∀ w, Path (es ++ [⟨0, none, i⟩]) 0 w 1 ↔ Path es i w 1 := by
      intro w
      rw [← r1 i w (by omega)]
      constructor
      · intro p
        cases p with
        | @eps e _ _ _ h1 h2 h3 p =>
          rcases List.mem_append.mp h1 with h1 | h1
          · have := hs _ h1; omega
          · simp at h1; subst h1; exact p
        | chr h1 h2 h3 _ _ p =>
          rcases List.mem_append.mp h1 with h1 | h1
          · have := hs _ h1; omega
          · simp at h1; subst h1; simp at h3
      · intro p
        exact .eps (e := ⟨0, none, i⟩) (by simp) rfl rfl p
    refine ⟨?_, ?_, ?_, ?_, ?_, ?_, ?_, ?_, ?_, ?_⟩
    · exact (Ext.pushEdge (Nat.le_refl _) ho none i).wf (f.ext.wf wf_init)
    · simpa using hlen
    · intro s x hx
      have hacc : ∀ x, n1.states[s]? = some x → (x.acc = true ↔ s = 1) := by
        intro x hx
        by_cases hs2 : s < 2
        · rw [f.ext.keep s (by rw [ilen]; exact hs2)] at hx
          have : s = 0 ∨ s = 1 := by omega
          rcases this with rfl | rfl <;> simp [init] at hx <;> subst hx <;> simp
        · have h0 : ∀ s x, init.states.length ≤ s → init.states[s]? = some x → x.acc = false := by
            intro s x h1 h2
            have := (List.getElem?_eq_some_iff.mp h2).1
            omega
          have := f.ext.acc h0 s x (by rw [ilen]; omega) hx
          rw [this]; simp; omega
      rw [states_pushEdge] at hx
      split at hx
      · cases hy : n1.states[s]? with
        | none => simp [hy] at hx
        | some y =>
          have := hacc y hy
          simp [hy] at hx
          subst hx
          split <;> simpa using this
      · exact hacc x hx
    · rw [hE]
      intro e he'
      simp only [length_pushEdge]
      rcases List.mem_append.mp he' with he' | he'
      · have := hs e he'; have := hd e he'; omega
      · simp at he'; subst he'; simp only; omega
    · rw [hE]
      intro e he'
      rcases List.mem_append.mp he' with he' | he'
      · have := hd e he'; omega
      · simp at he'; subst he'; simp only; omega
    · rw [hE]
      intro e he'
      rcases List.mem_append.mp he' with he' | he'
      · have := hs e he'; omega
      · simp at he'; subst he'; simp
    · rw [hE]
      intro w
      rw [ri]; exact f.lang w
    · rw [hE]
      intro w e m he' hl p
      have hes : e ∈ es := by
        rcases List.mem_append.mp he' with he' | he'
        · exact he'
        · simp at he'; subst he'; simp at hl
      have hsx := hs e hes
      generalize hx : e.src = x at p
      cases p with
      | nil => omega
      | @eps e' _ _ _ h1 h2 h3 p =>
        rcases List.mem_append.mp h1 with h1 | h1
        · have := hs _ h1; omega
        · simp at h1; subst h1
          have p' : Path es i w x := by
            refine Path.restrict (P := fun s => s ≠ 0) ?_ (show i ≠ 0 by omega) p
            intro e he' hne
            rcases List.mem_append.mp he' with he' | he'
            · exact ⟨he', by have := hd e he'; omega⟩
            · simp at he'; subst he'; simp at hne
          exact f.next w e m hes hl (hx ▸ p')
      | chr h1 h2 h3 _ _ p =>
        rcases List.mem_append.mp h1 with h1 | h1
        · have := hs _ h1; omega
        · simp at h1; subst h1; simp at h3
    · rw [hE]
      intro w m hk
      obtain ⟨e, he', hl, p⟩ := f.hit w m hk
      exact ⟨e, by simp [he'], hl, .eps (e := ⟨0, none, i⟩) (by simp) rfl rfl (p.mono (by simp_all))⟩
    · rw [hE]
      simp only [length_pushEdge]
      intro hv s hs'
      have co' : ∀ s, (s = 1 ∨ (2 ≤ s ∧ s < n1.states.length)) → ∃ w, Path es s w 1 := by
        rintro s (rfl | h)
        · exact ⟨[], .nil _⟩
        · exact f.co hv s h.1 h.2
      by_cases h0 : s = 0
      · subst h0
        obtain ⟨w, p⟩ := co' i he
        exact ⟨w, (ri w).mpr p⟩
      · obtain ⟨w, p⟩ := co' s (by omega)
        exact ⟨w, (r1 s w h0).mpr p⟩

theorem Good.mem_acceptingStates {n : Nfa} {L K V} (g : n.Good L K V) (s : Nat) :
    s ∈ n.acceptingStates ↔ s = 1 := by
  unfold acceptingStates
  simp only [List.mem_filter, List.mem_range]
  constructor
  · rintro ⟨h1, h2⟩
    rw [List.getElem?_eq_getElem h1] at h2
    exact (g.acc s _ (List.getElem?_eq_getElem h1)).mp (by simpa using h2)
  · rintro rfl
    have h1 : 1 < n.states.length := by have := g.len; omega
    refine ⟨h1, ?_⟩
    rw [List.getElem?_eq_getElem h1]
    simpa using (g.acc 1 _ (List.getElem?_eq_getElem h1)).mpr rfl

/-! ## Epsilon closure -/

/-- The edges that `edge_iter` can see. -/
def visible (n : Nfa) : List NEdge := (List.range n.states.length).flatMap n.edgeIter

theorem edgeIter_src {n : Nfa} {s : Nat} {e : NEdge} (h : e ∈ n.edgeIter s) :
    e.src = s ∧ e ∈ n.edges ∧ s < n.states.length := by
  unfold edgeIter at h
  split at h
  · simp at h
  · rename_i i hi
    refine ⟨?_, ?_, ?_⟩
    · have := List.mem_takeWhile_imp h
      simpa using this
    · exact List.mem_of_mem_drop ((List.takeWhile_sublist _).subset h)
    · cases hx : n.states[s]? with
      | none => simp [hx] at hi
      | some x => exact (List.getElem?_eq_some_iff.mp hx).1

theorem mem_visible {n : Nfa} {e : NEdge} : e ∈ n.visible ↔ e ∈ n.edgeIter e.src := by
  unfold visible
  simp only [List.mem_flatMap, List.mem_range]
  constructor
  · rintro ⟨s, _, h⟩
    rw [(edgeIter_src h).1]; exact h
  · intro h
    exact ⟨e.src, (edgeIter_src h).2.2, h⟩

theorem mem_visible_wf {n : Nfa} (h : n.WF) {e : NEdge} : e ∈ n.visible ↔ e ∈ n.edges := by
  rw [mem_visible, edgeIter_eq_filter (h e.src)]
  simp

theorem EpsReach.mono' {es es' : List NEdge} (h : ∀ e ∈ es, e ∈ es') {s t}
    (p : EpsReach es s t) : EpsReach es' s t := by
  induction p with
  | refl s => exact .refl s
  | step a b c _ ih => exact .step (h _ a) b c ih

theorem epsPush_spec (ret : List Nat) : ∀ (es : List NEdge) (stack : List Nat),
    ∃ pre, epsPush ret es stack = pre ++ stack ∧ pre.length ≤ es.length ∧
      ∀ x, x ∈ pre ↔ ∃ e ∈ es, e.label = none ∧ e.dst = x ∧ x ∉ ret
  | [], stack => ⟨[], rfl, by simp, by simp⟩
  | e :: es, stack => by
    cases hl : e.label with
    | some m =>
      obtain ⟨pre, h1, h2, h3⟩ := epsPush_spec ret es stack
      refine ⟨pre, by simp [epsPush, hl, h1], by simp; omega, ?_⟩
      intro x; rw [h3]; simp [hl]
    | none =>
      by_cases hd : e.dst ∈ ret
      · obtain ⟨pre, h1, h2, h3⟩ := epsPush_spec ret es stack
        refine ⟨pre, by simp [epsPush, hl, hd, h1], by simp; omega, ?_⟩
        intro x; rw [h3]; simp [hl]
        intro h1 h2; subst h1; exact absurd hd h2
      · obtain ⟨pre, h1, h2, h3⟩ := epsPush_spec ret es (e.dst :: stack)
        refine ⟨pre ++ [e.dst], by simp [epsPush, hl, hd, h1], by simp; omega, ?_⟩
        intro x
        simp only [List.mem_append, h3, List.mem_cons, List.not_mem_nil, or_false]
        constructor
        · rintro (⟨e', h1, h2⟩ | rfl)
          · exact ⟨e', .inr h1, h2⟩
          · exact ⟨e, .inl rfl, hl, rfl, hd⟩
        · rintro ⟨e', rfl | h1, h2⟩
          · exact .inr h2.2.1.symm
          · exact .inl ⟨e', h1, h2⟩

/-- Edges not yet scanned. -/
def pot (n : Nfa) (ret : List Nat) : Nat :=
  ((List.range n.states.length).map fun s => if s ∈ ret then 0 else (n.edgeIter s).length).sum

theorem pot_insert_aux (f : Nat → Nat) (ret : List Nat) (s : Nat) (hs : s ∉ ret) :
    ∀ (l : List Nat), s ∈ l → l.Nodup →
    (l.map fun x => if x ∈ s :: ret then 0 else f x).sum + f s =
      (l.map fun x => if x ∈ ret then 0 else f x).sum
  | [], h, _ => by simp at h
  | y :: l, h, hn => by
    simp only [List.nodup_cons] at hn
    by_cases hy : y = s
    · subst hy
      have : (l.map fun x => if x ∈ y :: ret then 0 else f x) =
          (l.map fun x => if x ∈ ret then 0 else f x) := by
        apply List.map_congr_left
        intro x hx
        have : x ≠ y := fun h => hn.1 (h ▸ hx)
        simp [this]
      simp only [List.map_cons, List.sum_cons, this]
      simp [hs]; omega
    · have ih := pot_insert_aux f ret s hs l (by simpa [Ne.symm hy] using h) hn.2
      simp only [List.map_cons, List.sum_cons]
      simp only [List.mem_cons, hy, false_or] at ih ⊢
      omega

theorem pot_insert {n : Nfa} {ret : List Nat} {s : Nat} (hs : s ∉ ret) :
    pot n (s :: ret) + (n.edgeIter s).length ≤ pot n ret := by
  by_cases hlt : s < n.states.length
  · exact Nat.le_of_eq (pot_insert_aux (fun s => (n.edgeIter s).length) ret s hs _
      (List.mem_range.mpr hlt) List.nodup_range)
  · have h0 : n.edgeIter s = [] := by
      cases h : n.edgeIter s with
      | nil => rfl
      | cons e es => exact absurd (edgeIter_src (by rw [h]; simp : e ∈ n.edgeIter s)).2.2 hlt
    rw [h0]
    unfold pot
    have : (List.range n.states.length).map (fun x => if x ∈ s :: ret then 0 else (n.edgeIter x).length)
        = (List.range n.states.length).map (fun x => if x ∈ ret then 0 else (n.edgeIter x).length) := by
      apply List.map_congr_left
      intro x hx
      have : x ≠ s := by rintro rfl; exact hlt (List.mem_range.mp hx)
      simp [this]
    rw [this]; simp

/-- Worklist invariant. -/
structure EpsInv (n : Nfa) (seed stack ret : List Nat) : Prop where
  sub : ∀ s ∈ seed, s ∈ ret ∨ s ∈ stack
  sound : ∀ s, s ∈ ret ∨ s ∈ stack → ∃ s₀ ∈ seed, EpsReach n.visible s₀ s
  closed : ∀ s ∈ ret, ∀ e ∈ n.edgeIter s, e.label = none → e.dst ∈ ret ∨ e.dst ∈ stack
  below : ∀ above s below, stack = above ++ s :: below → s ∈ ret →
    ∀ e ∈ n.edgeIter s, e.label = none → e.dst ∈ ret ∨ e.dst ∈ above
  nodup : ret.Nodup

theorem EpsReach.snoc {es : List NEdge} {s : Nat} {e : NEdge} (p : EpsReach es s e.src)
    (h1 : e ∈ es) (h2 : e.label = none) : EpsReach es s e.dst :=
  p.trans (.step h1 rfl h2 (.refl _))

theorem EpsInv.step {n : Nfa} {seed s stack ret} (h : EpsInv n seed (s :: stack) ret) :
    EpsInv n seed (epsPush (hinsert s ret) (n.edgeIter s) stack) (hinsert s ret) ∧
    (epsPush (hinsert s ret) (n.edgeIter s) stack).length + pot n (hinsert s ret) ≤
      stack.length + pot n ret := by
  obtain ⟨pre, hp, hlen, hpre⟩ := epsPush_spec (hinsert s ret) (n.edgeIter s) stack
  rw [hp]
  have hsr := h.sound s (.inr (by simp))
  by_cases hs : s ∈ ret
  · have e1 : hinsert s ret = ret := by simp [hinsert, hs]
    rw [e1] at hpre ⊢
    have : pre = [] := by
      rw [List.eq_nil_iff_forall_not_mem]
      intro x hx
      obtain ⟨e, he, hl, rfl, hn⟩ := (hpre x).mp hx
      rcases h.below [] s stack rfl hs e he hl with h1 | h1
      · exact hn h1
      · simp at h1
    subst this
    simp only [List.nil_append]
    refine ⟨⟨?_, ?_, ?_, ?_, h.nodup⟩, Nat.le_refl _⟩
    · intro x hx
      rcases h.sub x hx with h1 | h1
      · exact .inl h1
      · rcases List.mem_cons.mp h1 with rfl | h1
        · exact .inl hs
        · exact .inr h1
    · intro x hx
      exact h.sound x (hx.imp id (by simp +contextual))
    · intro x hx e he hl
      rcases h.closed x hx e he hl with h1 | h1
      · exact .inl h1
      · rcases List.mem_cons.mp h1 with h1 | h1
        · exact .inl (h1 ▸ hs)
        · exact .inr h1
    · intro above x below hst hx e he hl
      rcases h.below (s :: above) x below (by simp [hst]) hx e he hl with h1 | h1
      · exact .inl h1
      · rcases List.mem_cons.mp h1 with h1 | h1
        · exact .inl (h1 ▸ hs)
        · exact .inr h1
  · have e1 : hinsert s ret = s :: ret := by simp [hinsert, hs]
    rw [e1] at hpre ⊢
    refine ⟨⟨?_, ?_, ?_, ?_, List.nodup_cons.mpr ⟨hs, h.nodup⟩⟩, ?_⟩
    · intro x hx
      rcases h.sub x hx with h1 | h1
      · exact .inl (by simp [h1])
      · rcases List.mem_cons.mp h1 with rfl | h1
        · exact .inl (by simp)
        · exact .inr (by simp [h1])
    · intro x hx
      have : (x ∈ ret ∨ x ∈ s :: stack) ∨ x ∈ pre := by
        simp only [List.mem_cons, List.mem_append] at hx ⊢
        tauto
      rcases this with h1 | h1
      · exact h.sound x h1
      · obtain ⟨e, he, hl, rfl, hn⟩ := (hpre x).mp h1
        obtain ⟨s₀, hs₀, p⟩ := hsr
        refine ⟨s₀, hs₀, EpsReach.snoc (e := e) ?_ ?_ hl⟩
        · rw [(edgeIter_src he).1]; exact p
        · rw [mem_visible, (edgeIter_src he).1]; exact he
    · intro x hx e he hl
      rcases List.mem_cons.mp hx with rfl | hx
      · by_cases hd : e.dst ∈ x :: ret
        · exact .inl hd
        · exact .inr (List.mem_append.mpr (.inl ((hpre _).mpr ⟨e, he, hl, rfl, hd⟩)))
      · have := h.closed x hx e he hl
        simp only [List.mem_cons, List.mem_append] at this ⊢
        tauto
    · intro above x below hst hx e he hl
      -- position of x relative to pre
      have hxpre : x ∉ pre := by
        intro h1
        obtain ⟨_, _, _, _, hn⟩ := (hpre x).mp h1
        exact hn hx
      have hab : ∃ a', above = pre ++ a' ∧ stack = a' ++ x :: below := by
        rcases List.append_eq_append_iff.mp hst with ⟨a', h1, h2⟩ | ⟨c', h1, h2⟩
        · exact ⟨a', h1, h2⟩
        · cases c' with
          | nil => exact ⟨[], by simpa using h1.symm, by simpa using h2.symm⟩
          | cons c c' =>
            simp only [List.cons_append, List.cons.injEq] at h2
            exfalso; apply hxpre; rw [h1, h2.1]; simp
      obtain ⟨a', ha1, ha2⟩ := hab
      rcases List.mem_cons.mp hx with rfl | hx
      · by_cases hd : e.dst ∈ x :: ret
        · exact .inl hd
        · exact .inr (by rw [ha1]; exact List.mem_append.mpr (.inl ((hpre _).mpr ⟨e, he, hl, rfl, hd⟩)))
      · rcases h.below (s :: a') x below (by simp [ha2]) hx e he hl with h1 | h1
        · exact .inl (by simp [h1])
        · rcases List.mem_cons.mp h1 with h1 | h1
          · exact .inl (by simp [h1])
          · exact .inr (by rw [ha1]; simp [h1])
    · have := pot_insert (n := n) hs
      simp only [List.length_append]
      omega

theorem epsLoop_spec {n : Nfa} {seed : List Nat} : ∀ (fuel : Nat) (stack ret : List Nat),
    EpsInv n seed stack ret → stack.length + pot n ret ≤ fuel →
    ∃ r, epsLoop n fuel stack ret = .ok r ∧ EpsInv n seed [] r
  | _, [], ret, h, _ => ⟨ret, by unfold epsLoop; rfl, h⟩
  | 0, s :: stack, ret, h, hf => by simp at hf
  | fuel + 1, s :: stack, ret, h, hf => by
    obtain ⟨h1, h2⟩ := h.step
    obtain ⟨r, h3, h4⟩ := epsLoop_spec fuel _ _ h1 (by simp at hf; omega)
    exact ⟨r, by simpa [epsLoop] using h3, h4⟩

theorem EpsInv.final {n : Nfa} {seed r : List Nat} (h : EpsInv n seed [] r) (x : Nat) :
    x ∈ r ↔ ∃ s ∈ seed, EpsReach n.visible s x := by
  constructor
  · intro hx; exact h.sound x (.inl hx)
  · rintro ⟨s, hs, p⟩
    have : s ∈ r := by simpa using h.sub s hs
    clear hs
    induction p with
    | refl s => exact this
    | @step e s t h1 h2 h3 _ ih =>
      subst h2
      exact ih (by simpa using h.closed _ this e (mem_visible.mp h1) h3)

/-- Iteration orders enumerate the set. -/
def OrderOk (ord : Order) : Prop := ∀ i l x, x ∈ ord i l ↔ x ∈ l

theorem epsClosure_ok (n : Nfa) {ord : Order} (ho : OrderOk ord) (i : Nat) (set : List Nat) :
    ∃ r, n.epsClosure ord i set = .ok r ∧ r.Nodup ∧
      ∀ x, x ∈ r ↔ ∃ s ∈ set, EpsReach n.visible s x := by
  have h0 : EpsInv n (ord i set) (ord i set).reverse [] :=
    ⟨by simp, by simpa using fun s hs => ⟨s, hs, .refl s⟩, by simp, by simp, by simp⟩
  obtain ⟨r, h1, h2⟩ := epsLoop_spec (epsFuel n (ord i set)) _ _ h0 (by simp [epsFuel, pot])
  refine ⟨r, h1, h2.nodup, ?_⟩
  intro x
  rw [h2.final x]
  simp only [ho i set]

/-! ## Simulation -/

theorem mem_moveState {n : Nfa} {ord : Order} (ho : OrderOk ord) (i : Nat) (set : List Nat)
    (c : Char) (x : Nat) : x ∈ n.moveState ord i set c ↔
    ∃ s ∈ set, ∃ e ∈ n.edgeIter s, ∃ m, e.label = some m ∧ m.matchesC c = true ∧ e.dst = x := by
  unfold moveState
  have inner : ∀ (es : List NEdge) (ret : List Nat), x ∈ es.foldl (fun ret e =>
      match e.label with
      | some m => if m.matchesC c then hinsert e.dst ret else ret
      | none => ret) ret ↔ x ∈ ret ∨ ∃ e ∈ es, ∃ m, e.label = some m ∧ m.matchesC c = true ∧ e.dst = x := by
    intro es
    induction es with
    | nil => simp
    | cons e es ih =>
      intro ret
      rw [List.foldl_cons, ih]
      cases hl : e.label with
      | none => simp [hl]
      | some m =>
        by_cases hm : m.matchesC c = true
        · simp only [hm, if_true, mem_hinsert, List.mem_cons, exists_eq_or_imp, hl,
            Option.some.injEq, exists_eq_left', true_and]
          constructor
          · rintro ((rfl | h) | h)
            · exact .inr (.inl rfl)
            · exact .inl h
            · exact .inr (.inr h)
          · rintro (h | rfl | h)
            · exact .inl (.inr h)
            · exact .inl (.inl rfl)
            · exact .inr h
        · simp [hm, hl]
  have outer : ∀ (ss : List Nat) (ret : List Nat), x ∈ ss.foldl (fun ret s =>
      (n.edgeIter s).foldl (fun ret e =>
      match e.label with
      | some m => if m.matchesC c then hinsert e.dst ret else ret
      | none => ret) ret) ret ↔ x ∈ ret ∨ ∃ s ∈ ss, ∃ e ∈ n.edgeIter s, ∃ m, e.label = some m ∧
        m.matchesC c = true ∧ e.dst = x := by
    intro ss
    induction ss with
    | nil => simp
    | cons s ss ih =>
      intro ret
      rw [List.foldl_cons, ih, inner]
      simp only [List.mem_cons, exists_eq_or_imp, or_assoc]
  refine (outer (ord i set) []).trans ?_
  simp [ho i set]

theorem matchesC_iff {m : Match} {c : Char} : m.matchesC c = true ↔ m.lo ≤ c.toNat ∧ c.toNat < m.hi := by
  simp [Match.matchesC]

theorem path_snoc {es : List NEdge} {s t : Nat} {w : List Char} {c : Char} :
    Path es s (w ++ [c]) t ↔ ∃ u, Path es s w u ∧ ∃ e ∈ es, ∃ m, e.src = u ∧ e.label = some m ∧
      m.matchesC c = true ∧ EpsReach es e.dst t := by
  constructor
  · intro p
    obtain ⟨u, p1, p2⟩ := p.splitWord
    have : ∀ u v, Path es u v t → v = [c] → ∃ u', EpsReach es u u' ∧ ∃ e ∈ es, ∃ m, e.src = u' ∧
        e.label = some m ∧ m.matchesC c = true ∧ EpsReach es e.dst t := by
      clear p p2
      intro u v p hv
      induction p with
      | nil => simp at hv
      | eps h1 h2 h3 _ ih =>
        obtain ⟨u', q, h⟩ := ih hv
        exact ⟨u', .step h1 h2 h3 q, h⟩
      | chr h1 h2 h3 h4 h5 q _ =>
        simp only [List.cons.injEq] at hv
        obtain ⟨rfl, rfl⟩ := hv
        exact ⟨_, .refl _, _, h1, _, h2, h3, matchesC_iff.mpr ⟨h4, h5⟩, q.toEps rfl⟩
    obtain ⟨u', q, h⟩ := this u _ p2 rfl
    refine ⟨u', ?_, h⟩
    simpa using p1.trans q.toPath
  · rintro ⟨u, p, e, he, m, rfl, hl, hm, q⟩
    obtain ⟨h1, h2⟩ := matchesC_iff.mp hm
    exact p.trans (.chr he rfl hl h1 h2 q.toPath)

theorem simLoop_spec {n : Nfa} (hw : n.WF) {ord : Order} (ho : OrderOk ord) :
    ∀ (cs : List Char) (i : Nat) (set : List Nat) (w : List Char),
    (∀ x, x ∈ set ↔ Path n.edges START w x) →
    ∃ r, simLoop n ord i set cs = .ok r ∧ ∀ x, x ∈ r ↔ Path n.edges START (w ++ cs) x
  | [], i, set, w, h => ⟨set, rfl, by simpa using h⟩
  | c :: cs, i, set, w, h => by
    obtain ⟨r, h1, _, h2⟩ := n.epsClosure_ok ho (i + 1) (n.moveState ord i set c)
    obtain ⟨r', h3, h4⟩ := simLoop_spec hw ho cs (i + 2) r (w ++ [c]) (by
      intro x
      rw [h2, path_snoc]
      constructor
      · rintro ⟨s, hs, p⟩
        obtain ⟨u, hu, e, he, m, hl, hm, rfl⟩ := (mem_moveState ho _ _ _ _).mp hs
        refine ⟨u, (h u).mp hu, e, (edgeIter_src he).2.1, m, (edgeIter_src he).1, hl, hm, ?_⟩
        exact EpsReach.mono' (fun e he => (mem_visible_wf hw).mp he) p
      · rintro ⟨u, p, e, he, m, rfl, hl, hm, q⟩
        refine ⟨e.dst, (mem_moveState ho _ _ _ _).mpr ⟨e.src, (h _).mpr p, e, ?_, m, hl, hm, rfl⟩, ?_⟩
        · exact mem_visible.mp ((mem_visible_wf hw).mpr he)
        · exact EpsReach.mono' (fun e he => (mem_visible_wf hw).mpr he) q)
    refine ⟨r', by simp [simLoop, h1, bind, Except.bind, h3], ?_⟩
    simpa using h4

theorem start_closure {n : Nfa} (hw : n.WF) {ord : Order} (ho : OrderOk ord) (i : Nat) :
    ∃ r, n.epsClosure ord i [START] = .ok r ∧ r.Nodup ∧ ∀ x, x ∈ r ↔ Path n.edges START [] x := by
  obtain ⟨r, h1, hn, h2⟩ := n.epsClosure_ok ho i [START]
  refine ⟨r, h1, hn, ?_⟩
  intro x
  rw [h2]
  constructor
  · rintro ⟨s, hs, p⟩
    simp at hs; subst hs
    exact (EpsReach.mono' (fun e he => (mem_visible_wf hw).mp he) p).toPath
  · intro p
    exact ⟨START, by simp, EpsReach.mono' (fun e he => (mem_visible_wf hw).mpr he) (p.toEps rfl)⟩

theorem simulate_spec {n : Nfa} (hw : n.WF) {ord : Order} (ho : OrderOk ord) (s : Str) :
    ∃ b, n.simulate ord s = .ok b ∧
      (b = true ↔ ∃ x, Path n.edges START s x ∧ x ∈ n.acceptingStates) := by
  obtain ⟨r, h1, _, h2⟩ := start_closure hw ho 0
  obtain ⟨r', h3, h4⟩ := simLoop_spec hw ho s 1 r [] h2
  refine ⟨_, by simp only [simulate, h1, h3, bind, Except.bind, pure, Except.pure]; rfl, ?_⟩
  simp only [List.any_eq_true, decide_eq_true_eq]
  constructor
  · rintro ⟨x, hx, ha⟩; exact ⟨x, by simpa using (h4 x).mp hx, ha⟩
  · rintro ⟨x, hx, ha⟩; exact ⟨x, (h4 x).mpr (by simpa using hx), ha⟩

end Nfa
end Verif
