import Verif.Spec.Lexer
import Verif.Proofs.LexRun
import Mathlib.Tactic.Tauto

/-! From walks of the DFA to regexes. -/

namespace Verif
open Spec

namespace Lex

theorem Combined.inj {toks N m acc} (hc : Combined toks N m acc) {i j : Nat} (hi : i < toks.length)
    (hj : j < toks.length) (h : acc i = acc j) : i = j := by
  rcases Nat.lt_trichotomy i j with h' | h' | h'
  · have := hc.mono i j h' hj; omega
  · exact h'
  · have := hc.mono j i h' hi; omega

theorem Combined.mget {toks N m acc} (hc : Combined toks N m acc) {i : Nat} {p : TokenDef × Hir}
    (hi : toks[i]? = some p) : mget (acc i) m = some p.1 := by
  have hlt := (List.getElem?_eq_some_iff.mp hi).1
  have key : ∀ (is : List Nat) (f : Nat → TokenDef), (∀ j ∈ is, j < toks.length) → i ∈ is →
      Verif.mget (acc i) (is.map fun i => (acc i, f i)) = some (f i) := by
    intro is f
    induction is with
    | nil => simp
    | cons j is ih =>
      intro his hmem
      simp only [List.map_cons, Verif.mget]
      by_cases hij : acc i = acc j
      · have := hc.inj hlt (his j (by simp)) hij
        simp [this]
      · rw [if_neg hij]
        refine ih (fun x hx => his x (by simp [hx])) ?_
        rcases List.mem_cons.mp hmem with h | h
        · exact absurd (by rw [h]) hij
        · exact h
  rw [hc.tokens, key _ _ (by simp) (by simpa using hlt)]
  simp [List.getD, hi]

/-- What `from_tokens` builds. -/
structure Made (toks : List (TokenDef × Hir)) (lx : Lex) (N : Nfa) (acc : Nat → Nat)
    (al : List Match) (D : List (List Nat)) (s0 : List Nat) : Prop where
  comb : Combined toks N lx.tokens acc
  built : Dfa.Built N lx.dfa al D s0
  accept : lx.acceptingDfaToNfa = lx.dfa.acceptingStates

theorem fromTokens_made {ord : Nfa.Order} (ho : Nfa.OrderOk ord) {toks lx}
    (h : fromTokens ord toks = .ok lx) : ∃ N acc al D s0, Made toks lx N acc al D s0 := by
  unfold fromTokens at h
  cases hb : buildNfas toks with
  | error e => simp [hb, bind, Except.bind] at h
  | ok ns =>
    obtain ⟨acc, hc⟩ := combined hb
    obtain ⟨d, al, D, s0, h1, B⟩ := Dfa.fromNfa_built hc.base ho
    simp only [hb, bind, Except.bind, h1, pure, Except.pure, Except.ok.injEq] at h
    subst h
    exact ⟨_, acc, al, D, s0, hc, B, rfl⟩

theorem fromTokens_ok {ord : Nfa.Order} (ho : Nfa.OrderOk ord) {toks : List (TokenDef × Hir)} :
    (∃ lx, fromTokens ord toks = .ok lx) ↔ ∀ p ∈ toks, ∃ n, Nfa.fromRegex p.2 = .ok n := by
  rw [← buildNfas_ok_iff]
  unfold fromTokens
  constructor
  · rintro ⟨lx, h⟩
    cases hb : buildNfas toks with
    | error e => simp [hb, bind, Except.bind] at h
    | ok ns => exact ⟨ns, rfl⟩
  · rintro ⟨ns, hb⟩
    obtain ⟨acc, hc⟩ := combined hb
    obtain ⟨d, al, D, s0, h1, B⟩ := Dfa.fromNfa_built hc.base ho
    exact ⟨⟨d, (combine ns).2, d.acceptingStates⟩, by
      simp only [hb, bind, Except.bind, h1, pure, Except.pure]⟩

variable {toks : List (TokenDef × Hir)} {lx : Lex} {N : Nfa} {acc : Nat → Nat} {al : List Match}
  {D : List (List Nat)} {s0 : List Nat}

/-- Reading off the accepting state. -/
theorem Made.acceptOf (M : Made toks lx N acc al D s0) {t : Nat} {u : List Nat} (ht : t ≠ 0)
    (hu : D[t]? = some u) : lx.acceptOf t = (u.filter fun x => decide (x ∈ N.acceptingStates)).head? := by
  unfold Lex.acceptOf
  rw [M.accept, M.built.mget_accepting, if_neg ht, hu]
  simp only [Option.bind_some]
  cases u.filter (fun x => decide (x ∈ N.acceptingStates)) <;> rfl

theorem Made.acc_sound (M : Made toks lx N acc al D s0) {p : List Char} {a : Nat} (h : lx.Acc p a) :
    ∃ i q, toks[i]? = some q ∧ a = acc i ∧ Matches q.2 p := by
  obtain ⟨hp, t, hw, ha⟩ := h
  obtain ⟨u, hu, hsub⟩ := M.built.walk_sub p [] 0 t M.built.eqReach_nil.sub hw
  rw [M.acceptOf (M.built.walk_ne hp hw) hu] at ha
  have := List.mem_of_head? ha
  simp only [List.mem_filter, decide_eq_true_eq] at this
  obtain ⟨i, hi, rfl⟩ := (M.comb.accepting a).mp this.2
  refine ⟨i, toks[i], List.getElem?_eq_getElem hi, rfl, ?_⟩
  exact (M.comb.lang i toks[i].1 toks[i].2 (List.getElem?_eq_getElem hi) p).mp (by
    simpa using hsub _ this.1)

theorem Made.acc_exact (M : Made toks lx N acc al D s0) (hd : Dfa.Uniform N al)
    {p : List Char} {a : Nat} (h : lx.Acc p a) : ∃ i, a = acc i ∧ FirstMatch toks p i := by
  obtain ⟨i, q, hi, rfl, hm⟩ := M.acc_sound h
  refine ⟨i, rfl, ⟨q, hi, hm⟩, ?_⟩
  intro j p' hj hp' hm'
  obtain ⟨hp, t, hw, ha⟩ := h
  obtain ⟨u, hu, heq⟩ := M.built.walk_eq hd p [] 0 t M.built.eqReach_nil hw
  rw [M.acceptOf (M.built.walk_ne hp hw) hu] at ha
  have hil := (List.getElem?_eq_some_iff.mp hi).1
  have hsort : (u.filter fun x => decide (x ∈ N.acceptingStates)).Pairwise (· < ·) := by
    have := (M.built.spec.all u (List.mem_of_getElem? hu)).1
    exact (this.imp (by intro a b hab; simpa [blt, BOrd.blt] using hab)).filter _
  have hmem : acc j ∈ u.filter fun x => decide (x ∈ N.acceptingStates) := by
    simp only [List.mem_filter, decide_eq_true_eq]
    refine ⟨(heq _).mpr ?_, (M.comb.accepting _).mpr ⟨j, by omega, rfl⟩⟩
    simpa using (M.comb.lang j p'.1 p'.2 hp' p).mpr hm'
  have hlt := M.comb.mono j i hj hil
  revert ha hsort hmem
  cases u.filter (fun x => decide (x ∈ N.acceptingStates)) with
  | nil => simp
  | cons b l =>
    intro ha hsort hmem
    simp only [List.head?_cons, Option.some.injEq] at ha
    subst ha
    rcases List.mem_cons.mp hmem with h | h
    · omega
    · have := (List.pairwise_cons.mp hsort).1 _ h; omega

theorem Made.acc_complete (M : Made toks lx N acc al D s0) (hd : Dfa.Uniform N al)
    {p : List Char} (hp : p ≠ []) {q : TokenDef × Hir} (hq : q ∈ toks) (hm : Matches q.2 p) :
    ∃ a, lx.Acc p a := by
  obtain ⟨i, hi, rfl⟩ := List.mem_iff_getElem.mp hq
  have hpath := (M.comb.lang i toks[i].1 toks[i].2 (List.getElem?_eq_getElem hi) p).mpr hm
  have hsome := (M.built.walk_isSome hd p [] 0 M.built.eqReach_nil ⟨0, .nil 0⟩).mpr ⟨_, by simpa using hpath⟩
  obtain ⟨t, hw⟩ := Option.isSome_iff_exists.mp hsome
  obtain ⟨u, hu, heq⟩ := M.built.walk_eq hd p [] 0 t M.built.eqReach_nil hw
  have hmem : acc i ∈ u.filter fun x => decide (x ∈ N.acceptingStates) := by
    simp only [List.mem_filter, decide_eq_true_eq]
    exact ⟨(heq _).mpr (by simpa using hpath), (M.comb.accepting _).mpr ⟨i, hi, rfl⟩⟩
  have ha := M.acceptOf (M.built.walk_ne hp hw) hu
  cases hf : u.filter (fun x => decide (x ∈ N.acceptingStates)) with
  | nil => rw [hf] at hmem; simp at hmem
  | cons b l => rw [hf] at ha; exact ⟨b, hp, t, hw, ha⟩

theorem path_label {es : List NEdge} {s t : Nat} {w : List Char} (p : Path es s w t) (hw : w ≠ []) :
    ∃ e ∈ es, ∃ m, e.label = some m := by
  induction p with
  | nil => exact absurd rfl hw
  | eps _ _ _ _ ih => exact ih hw
  | chr h1 _ h3 => exact ⟨_, h1, _, h3⟩

theorem Made.viable (M : Made toks lx N acc al D s0) (hd : Dfa.Uniform N al)
    (hv : ∀ p ∈ toks, NonVoid p.2) {p : List Char} (hp : p ≠ []) :
    (lx.dfa.walk 0 p).isSome = true ↔ Viable toks p := by
  rw [M.built.walk_isSome hd p [] 0 M.built.eqReach_nil ⟨0, .nil 0⟩]
  simp only [List.nil_append]
  constructor
  · rintro ⟨x, hx⟩
    have hne : toks ≠ [] := by
      rintro rfl
      obtain ⟨e, he, m, hm⟩ := path_label hx hp
      obtain ⟨q, hq, _⟩ := (M.comb.labels m).mp ⟨e, he, hm⟩
      simp at hq
    obtain ⟨v, i, hi, hpath⟩ := M.comb.co hv hne p x hx
    exact ⟨v, toks[i], List.getElem_mem hi,
      (M.comb.lang i toks[i].1 toks[i].2 (List.getElem?_eq_getElem hi) _).mp (hx.trans hpath)⟩
  · rintro ⟨v, q, hq, hm⟩
    obtain ⟨i, hi, rfl⟩ := List.mem_iff_getElem.mp hq
    exact Dfa.path_prefix ((M.comb.lang i toks[i].1 toks[i].2 (List.getElem?_eq_getElem hi) _).mpr hm)

/-- The token made for a piece, values sliced as the code does. -/
def expected (toks : List (TokenDef × Hir)) (input : Str) (p : Nat × Nat × List Char) : Res Token :=
  match toks[p.2.1]? with
  | some (d, _) =>
    if d.withVal then do
      let v ← byteSlice input p.1 (p.1 + p.2.2.length)
      return ⟨d.name, some v⟩
    else .ok ⟨d.name, none⟩
  | none => .error .noTokenDef

theorem Made.piece (M : Made toks lx N acc al D s0) {input : Str} {k i : Nat} {w : List Char}
    {q : TokenDef × Hir} (hi : toks[i]? = some q) (hw : w ≠ []) :
    lx.piece input (k, w, acc i) = expected toks input (k, i, w) := by
  have : 0 < w.length := List.length_pos_iff.mpr hw
  have h1 : k + w.length - 1 + 1 = k + w.length := by omega
  simp only [Lex.piece, Lex.makeTok, expected, M.comb.mget hi, hi, h1]

theorem blank_iff {c : Char} : isWhitespace c = true ↔ Blank c := by
  simp only [isWhitespace, Bool.or_eq_true, beq_iff_eq, Blank]
  exact or_comm

theorem walk_single {d : Dfa} {c : Char} : (d.walk 0 [c]).isSome = true ↔ ¬ d.findEdge 0 c = none := by
  simp only [Dfa.walk]
  cases d.findEdge 0 c <;> simp

theorem Made.pieces (M : Made toks lx N acc al D s0) (full : Str) {k input out dr}
    (h : Run lx k input out dr) : ∃ out', Pieces toks k input out' dr ∧
      out.mapM (lx.piece full) = out'.mapM (expected toks full) := by
  induction h with
  | done => exact ⟨[], .stop, rfl⟩
  | ws h1 _ _ ih =>
    obtain ⟨out', h3, h4⟩ := ih
    exact ⟨out', .blank (blank_iff.mp h1) h3, h4⟩
  | tok h1 h2 _ _ ih =>
    obtain ⟨out', h3, h4⟩ := ih
    obtain ⟨i, q, hi, rfl, hm⟩ := M.acc_sound h1.1
    refine ⟨(_, i, _) :: out', by rw [h2]; exact Pieces.tok h1.1.1 hi hm h3, ?_⟩
    simp only [List.mapM_cons, M.piece hi h1.1.1, h4]
  | tokEnd h1 h2 _ =>
    obtain ⟨i, q, hi, rfl, hm⟩ := M.acc_sound h1.1
    refine ⟨[(_, i, _)], by rw [h2]; exact Pieces.tok h1.1.1 hi hm .stop, ?_⟩
    simp only [List.mapM_cons, M.piece hi h1.1.1, List.mapM_nil]
  | stop _ _ => exact ⟨[], .stop, rfl⟩

theorem Made.longest (M : Made toks lx N acc al D s0) (hd : Dfa.Uniform N al) {input w a}
    (h : LongestAcc lx input w a) : LongestMatch toks input w := by
  obtain ⟨i, q, hi, _, hm⟩ := M.acc_sound h.1
  refine ⟨h.1.1, h.2.1, ⟨q, List.mem_of_getElem? hi, hm⟩, ?_⟩
  intro v hv hlt p hp hmp
  have hne : v ≠ [] := by rintro rfl; simp at hlt
  obtain ⟨b, hb⟩ := M.acc_complete hd hne hp hmp
  exact h.2.2 v b hv hlt hb

theorem Made.lexes (M : Made toks lx N acc al D s0) (hd : Dfa.Uniform N al)
    (hv : ∀ p ∈ toks, NonVoid p.2) (full : Str) {k input out dr}
    (h : Run lx k input out dr) : ∃ out', Lexes toks k input out' dr ∧
      out.mapM (lx.piece full) = out'.mapM (expected toks full) := by
  induction h with
  | done => exact ⟨[], .done, rfl⟩
  | ws h1 hf _ ih =>
    obtain ⟨out', h3, h4⟩ := ih
    refine ⟨out', .blank (blank_iff.mp h1) ?_ h3, h4⟩
    rw [← M.viable hd hv (by simp), walk_single]
    simpa using hf
  | tok h1 h2 h5 _ ih =>
    obtain ⟨out', h3, h4⟩ := ih
    obtain ⟨i, rfl, hm⟩ := M.acc_exact hd h1.1
    obtain ⟨q, hi, _⟩ := hm.1
    refine ⟨(_, i, _) :: out', .tok (M.longest hd h1) hm h2 ?_ h3, ?_⟩
    · rw [← M.viable hd hv (by rw [h2]; simp [h1.1.1]), h5]; simp
    · simp only [List.mapM_cons, M.piece hi h1.1.1, h4]
  | tokEnd h1 h2 h5 =>
    obtain ⟨i, rfl, hm⟩ := M.acc_exact hd h1.1
    obtain ⟨q, hi, _⟩ := hm.1
    refine ⟨[(_, i, _)], .tokEnd (M.longest hd h1) hm h2 ?_, ?_⟩
    · rw [← M.viable hd hv (by rw [h2]; simp [h1.1.1])]; exact h5
    · simp only [List.mapM_cons, M.piece hi h1.1.1, List.mapM_nil]
  | stop h1 h2 =>
    refine ⟨[], .stop ?_ ?_, rfl⟩
    · intro v hne hvp p hp hm
      obtain ⟨a, ha⟩ := M.acc_complete hd hne hp hm
      exact h1 v a hvp ha
    · rw [← blank_iff, ← M.viable hd hv (by simp), walk_single]
      simpa using h2

/-! ## values -/

theorem dropBytes_ascii : ∀ (pre rest : List Char), (∀ c ∈ pre, c.toNat < 128) →
    dropBytes (pre ++ rest) pre.length = some rest
  | [], rest, _ => by cases rest <;> rfl
  | c :: pre, rest, h => by
    have h1 := (Dfa.utf8Size_ascii c).mpr (h c (by simp))
    simp only [List.cons_append, List.length_cons, dropBytes, h1]
    rw [if_pos (by omega), Nat.add_sub_cancel]
    exact dropBytes_ascii pre rest fun x hx => h x (by simp [hx])

theorem takeBytes_ascii : ∀ (w post : List Char), (∀ c ∈ w, c.toNat < 128) →
    takeBytes (w ++ post) w.length = some w
  | [], post, _ => by cases post <;> rfl
  | c :: w, post, h => by
    have h1 := (Dfa.utf8Size_ascii c).mpr (h c (by simp))
    simp only [List.cons_append, List.length_cons, takeBytes, h1]
    rw [if_pos (by omega), Nat.add_sub_cancel, takeBytes_ascii w post fun x hx => h x (by simp [hx])]
    rfl

theorem byteSlice_ascii {pre w post : List Char} (h : ∀ c ∈ pre ++ w, c.toNat < 128) :
    byteSlice (pre ++ (w ++ post)) pre.length (pre.length + w.length) = .ok w := by
  unfold byteSlice
  rw [if_pos (by omega), dropBytes_ascii pre _ fun c hc => h c (by simp [hc])]
  simp only [Option.bind_some, Nat.add_sub_cancel_left]
  rw [takeBytes_ascii w post fun c hc => h c (by simp [hc])]

theorem pieces_where {k input out dr} (h : Pieces toks k input out dr) :
    ∀ p ∈ out, ∃ pre post, input = pre ++ (p.2.2 ++ post) ∧ p.1 = k + pre.length ∧ p.2.2 ≠ [] ∧
      ∃ q, toks[p.2.1]? = some q ∧ Matches q.2 p.2.2 := by
  induction h with
  | stop => simp
  | @blank k c rest out dr _ _ ih =>
    intro p hp
    obtain ⟨pre, post, h1, h2, h3⟩ := ih p hp
    exact ⟨c :: pre, post, by simp [h1], by simp [h2]; omega, h3⟩
  | @tok k w i q rest out dr h1 h2 h3 _ ih =>
    intro p hp
    rcases List.mem_cons.mp hp with rfl | hp
    · exact ⟨[], rest, by simp, by simp, h1, q, h2, h3⟩
    · obtain ⟨pre, post, h4, h5, h6⟩ := ih p hp
      exact ⟨w ++ pre, post, by simp [h4], by simp [h5]; omega, h6⟩

theorem lexes_pieces {k input out dr} (h : Lexes toks k input out dr) : Pieces toks k input out dr := by
  induction h with
  | done => exact .stop
  | blank h1 _ _ ih => exact .blank h1 ih
  | tok h1 h2 h3 _ _ ih =>
    obtain ⟨q, hq, hm⟩ := h2.1
    exact h3 ▸ .tok h1.1 hq hm ih
  | tokEnd h1 h2 h3 _ =>
    obtain ⟨q, hq, hm⟩ := h2.1
    exact h3 ▸ .tok h1.1 hq hm .stop
  | stop _ _ => exact .stop

theorem pieces_len {k input out dr} (h : Pieces toks k input out dr) :
    out.length + dr.length ≤ input.length := by
  induction h with
  | stop => simp
  | blank _ _ ih => simp only [List.length_cons]; omega
  | tok h1 _ _ _ ih =>
    have := List.length_pos_iff.mpr h1
    simp only [List.length_cons, List.length_append]; omega

theorem mapM_ok_of {α β : Type} {f : α → Res β} {g : α → β} : ∀ {l : List α},
    (∀ a ∈ l, f a = .ok (g a)) → l.mapM f = .ok (l.map g)
  | [], _ => rfl
  | a :: l, h => by
    simp [List.mapM_cons, h a (by simp), mapM_ok_of (l := l) fun b hb => h b (by simp [hb]), bind,
      Except.bind, pure, Except.pure]

theorem pieces_split {k input out dr} (h : Pieces toks k input out dr) : ∃ a, input = a ++ dr ∧
    ∀ p ∈ out, ∃ pre post, a = pre ++ (p.2.2 ++ post) ∧ p.1 = k + pre.length ∧ ∃ q, toks[p.2.1]? = some q := by
  induction h with
  | stop => exact ⟨[], rfl, by simp⟩
  | @blank k c rest out dr _ _ ih =>
    obtain ⟨a, rfl, ih⟩ := ih
    refine ⟨c :: a, rfl, fun p hp => ?_⟩
    obtain ⟨pre, post, h1, h2, h3⟩ := ih p hp
    exact ⟨c :: pre, post, by simp [h1], by simp [h2]; omega, h3⟩
  | @tok k w i q rest out dr h1 h2 h3 _ ih =>
    obtain ⟨a, rfl, ih⟩ := ih
    refine ⟨w ++ a, by simp, fun p hp => ?_⟩
    rcases List.mem_cons.mp hp with rfl | hp
    · exact ⟨[], a, by simp, by simp, q, h2⟩
    · obtain ⟨pre, post, h4, h5, h6⟩ := ih p hp
      exact ⟨w ++ pre, post, by simp [h4], by simp [h5]; omega, h6⟩

/-- Only the part of the input that is cut into pieces is sliced. -/
theorem expected_ascii' {input : Str} {out dr} (h : Pieces toks 0 input out dr)
    (ha : ∀ a, input = a ++ dr → ∀ c ∈ a, c.toNat < 128) :
    out.mapM (expected toks input) = .ok (out.map (tokenOf toks)) := by
  obtain ⟨a, h0, h⟩ := pieces_split h
  refine mapM_ok_of fun p hp => ?_
  obtain ⟨pre, post, h1, h2, q, hq⟩ := h p hp
  simp only [Nat.zero_add] at h2
  simp only [expected, tokenOf, hq]
  have hs : byteSlice input p.1 (p.1 + p.2.2.length) = .ok p.2.2 := by
    rw [h2, h0, h1, List.append_assoc, List.append_assoc]
    exact byteSlice_ascii fun c hc => ha a h0 c (by rw [h1]; simp at hc ⊢; tauto)
  rw [hs]
  cases q.1.withVal <;> rfl

theorem expected_ascii {input : Str} (ha : ∀ c ∈ input, c.toNat < 128) {out dr}
    (h : Pieces toks 0 input out dr) :
    out.mapM (expected toks input) = .ok (out.map (tokenOf toks)) :=
  expected_ascii' h fun a e c hc => ha c (by rw [e]; simp [hc])

/-- The pieces become tokens, or slicing panics. -/
theorem expected_or {input : Str} : ∀ {out : List (Nat × Nat × List Char)}, (∀ p ∈ out, ∃ q, toks[p.2.1]? = some q) →
    (∃ ts, out.mapM (expected toks input) = .ok ts ∧ ts.length = out.length) ∨
      out.mapM (expected toks input) = .error .charBoundary
  | [], _ => .inl ⟨[], rfl, rfl⟩
  | p :: out, hdef => by
    have hp : (∃ t, expected toks input p = .ok t) ∨ expected toks input p = .error .charBoundary := by
      obtain ⟨q, hq⟩ := hdef p (by simp)
      have hbs : (∃ v, byteSlice input p.1 (p.1 + p.2.2.length) = .ok v) ∨
          byteSlice input p.1 (p.1 + p.2.2.length) = .error .charBoundary := by
        unfold byteSlice
        rw [if_pos (by omega)]
        cases (dropBytes input p.1).bind (fun t => takeBytes t (p.1 + p.2.2.length - p.1)) with
        | none => right; rfl
        | some v => left; exact ⟨v, rfl⟩
      unfold expected
      simp only [hq]
      cases hw : q.1.withVal with
      | false => left; exact ⟨_, rfl⟩
      | true =>
        rcases hbs with ⟨v, hv⟩ | hv
        · left; rw [hv]; exact ⟨_, rfl⟩
        · right; rw [hv]; rfl
    simp only [List.mapM_cons]
    rcases hp with ⟨t, ht⟩ | he
    · rcases expected_or (input := input) (out := out) (fun p hp => hdef p (by simp [hp])) with ⟨ts, h5, h6⟩ | h5
      · exact .inl ⟨t :: ts, by simp [ht, h5, bind, Except.bind, pure, Except.pure], by simp [h6]⟩
      · exact .inr (by simp [ht, h5, bind, Except.bind])
    · exact .inr (by simp [he, bind, Except.bind])

end Lex
end Verif
