import Verif.Spec.Lexer
import Verif.Proofs.DfaTest
import Verif.Props.Ranges
import Verif.Props.Combine

/-! # C07, C08, C09: the DFA -/

namespace Verif.Props
open Verif Verif.Spec

/-- The automata this crate builds. -/
inductive CrateNfa : Nfa → Prop
  | regex {h n} : Nfa.fromRegex h = .ok n → CrateNfa n
  | combined {toks ns} : Lex.buildNfas toks = .ok ns → CrateNfa (Lex.combine ns).1

theorem CrateNfa.base {n : Nfa} (h : CrateNfa n) : n.Base := by
  cases h with
  | regex h => exact (Nfa.fromRegex_good h).base
  | combined h => obtain ⟨acc, hc⟩ := Lex.combined h; exact hc.base

/-- NFA state `x` can be entered from the set `u` by an edge whose range covers
the whole range `a`, followed by epsilon edges. -/
def Move (n : Nfa) (u : List Nat) (a : Match) (x : Nat) : Prop :=
  ∃ e ∈ n.edges, e.src ∈ u ∧ ∃ m, e.label = some m ∧ Within a m ∧ EpsReach n.edges e.dst x

theorem mem_tr_move {n : Nfa} (hn : n.Base) {u : List Nat} {a : Match} (ha : ∃ c, Mem c a) (x : Nat) :
    x ∈ Dfa.tr n u a ↔ Move n u a x := by
  rw [(Dfa.tr_spec hn u a).2.2 x]
  obtain ⟨c, hc⟩ := ha
  constructor
  · rintro ⟨e, he, hs, m, hm, h1, h2, hr⟩
    refine ⟨e, he, hs, m, hm, ?_, hr⟩
    intro c' hc'; unfold Mem at *; omega
  · rintro ⟨e, he, hs, m, hm, hw, hr⟩
    refine ⟨e, he, hs, m, hm, hw _ ?_, hw _ ?_, hr⟩ <;> unfold Mem at * <;> omega

/-- C07.  For every alphabet of non-empty ranges the subset construction
terminates; its states stand for the pairwise distinct sets `D`, the first being
the closure of the NFA start state; the edges of `d` are exactly the non-empty
moves of those sets; walking the edge list of a state yields all its edges; and
`dfa_to_nfa` maps every state but 0 to its set. -/
theorem C07_subset_construction {n : Nfa} (hn : CrateNfa n) {ord : Nfa.Order} (ho : Reorders ord)
    (al : List Match) (hne : ∀ a ∈ al, ∃ c, Mem c a) :
    ∃ (d : Dfa) (D : List (List Nat)), Dfa.build n ord al = .ok d ∧ d.states.length = D.length ∧
      D.Nodup ∧ (∀ u ∈ D, u.Pairwise (· < ·)) ∧
      (∃ u, D[0]? = some u ∧ ∀ x, x ∈ u ↔ EpsReach n.edges Nfa.START x) ∧
      (∀ e ∈ d.edges, ∃ u v, D[e.src]? = some u ∧ D[e.dst]? = some v ∧ e.label ∈ al ∧ v ≠ [] ∧
        ∀ x, x ∈ v ↔ Move n u e.label x) ∧
      (∀ t u, D[t]? = some u → ∀ a ∈ al, (∃ x, Move n u a x) →
        ∃ e ∈ d.edges, e.src = t ∧ e.label = a) ∧
      (∀ t, d.edgeIter t = d.edges.filter fun e => e.src == t) ∧
      (∀ t, mget t d.dfaToNfa = if t = 0 then none else D[t]?) := by
  have hb := hn.base
  obtain ⟨r, h3, _, h4⟩ := Nfa.start_closure hb.wf (reorders_ok ho) 0
  have hs0 : ∀ x, x ∈ ofList (ord 1 r) ↔ Path n.edges 0 [] x := by
    intro x; rw [mem_ofList, (ho 1 r).mem_iff, h4]; rfl
  obtain ⟨d, D, h5, h6⟩ := Dfa.build_spec (n := n) (ord := ord) (alphabet := al) (tr := Dfa.tr n)
    (s0 := ofList (ord 1 r)) (fun u l => (Dfa.tr_spec hb u l).1) (P := Dfa.SetOk n)
    (by
      intro u l _ hu _
      refine ⟨(Dfa.tr_spec hb u l).2.1, fun x hx => ?_⟩
      obtain ⟨e, he, _, _, _, _, _, hr⟩ := ((Dfa.tr_spec hb u l).2.2 x).mp hx
      exact hb.epsReach_lt hr (hb.bound e he).2)
    (fun u hu => hu) h3 rfl
    ⟨sorted_ofList _, fun x hx => hb.path_lt ((hs0 x).mp hx) hb.start⟩
  refine ⟨d, D, h5, h6.len, h6.nodup, ?_, ⟨_, h6.zero, ?_⟩, ?_, ?_, h6.filter, h6.map⟩
  · intro u hu
    exact (h6.all u hu).1.imp (by intro a b hab; simpa [blt, BOrd.blt] using hab)
  · intro x
    rw [hs0]
    have key : ∀ s w, Path n.edges s w x → w = [] → EpsReach n.edges s x := by
      intro s w p
      induction p with
      | nil s => intro _; exact .refl s
      | eps a b c _ ih => intro hw; exact .step a b c (ih hw)
      | chr => intro hw; cases hw
    constructor
    · intro p; exact key _ _ p rfl
    · intro p
      show Path n.edges Nfa.START [] x
      clear key hs0 h4 h3
      generalize Nfa.START = s at p
      induction p with
      | refl s => exact .nil s
      | step a b c _ ih => exact .eps a b c ih
  · intro e he
    have hsrc := (h6.bound e he).1
    obtain ⟨u, hu⟩ : ∃ u, D[e.src]? = some u := ⟨_, List.getElem?_eq_getElem hsrc⟩
    have hmem : e ∈ d.edgeIter e.src := by rw [h6.filter]; simp [he]
    obtain ⟨l, hl, _, h8, h9⟩ := Dfa.forall₂_mem_right (h6.iter _ u hu) hmem
    subst h8
    rw [List.mem_filter] at hl
    refine ⟨u, _, hu, h9, hl.1, by simpa using hl.2, fun x => mem_tr_move hb (hne _ hl.1) x⟩
  · intro t u hu a ha ⟨x, hx⟩
    have hx' := (mem_tr_move hb (hne a ha) x).mpr hx
    obtain ⟨e, he, h8, h9, _⟩ := Dfa.forall₂_mem_left (h6.iter t u hu) (a := a) (by
      rw [List.mem_filter]
      refine ⟨ha, ?_⟩
      have : Dfa.tr n u a ≠ [] := List.ne_nil_of_mem hx'
      simpa using this)
    rw [h6.filter, List.mem_filter] at he
    exact ⟨e, he.1, h8, h9⟩

/-- The DFA of `(a|bc*)+` over its three atoms. -/
example : ∃ n d, Nfa.fromRegex sampleHir = .ok n ∧
    Dfa.build n (fun _ l => l.reverse) [⟨97, 98⟩, ⟨98, 99⟩, ⟨99, 100⟩] = .ok d ∧
    d.states.length = 4 ∧ d.edges.length = 10 :=
  ⟨_, _, rfl, rfl, by decide +kernel, by decide +kernel⟩

theorem mem_rangesAll {hs : List Hir} {h : Hir} {m : Match} (hh : h ∈ hs) (hm : m ∈ ranges h) : m ∈ rangesAll hs := by
  induction hs with
  | nil => simp at hh
  | cons h' hs ih =>
    simp only [rangesAll, List.mem_append]
    rcases List.mem_cons.mp hh with rfl | hh
    · exact .inl hm
    · exact .inr (ih hh)

theorem next_ranges {h : Hir} {w m} (hn : Next h w m) : m ∈ ranges h := by
  induction hn with
  | lit => simp [ranges]
  | cls hr => exact List.mem_map.mpr ⟨_, hr, rfl⟩
  | repFirst _ ih => exact ih
  | repMore _ _ _ ih => exact ih
  | group _ ih => exact ih
  | concatHead _ ih => exact List.mem_append_left _ ih
  | concatTail _ _ ih => exact List.mem_append_right _ ih
  | alt hh _ ih => exact mem_rangesAll hh ih

/-- Enough for `AtomsOk`: no piece lies partly inside a range. -/
theorem atomsOk_of_whole {hs : List Hir} (h : WholePieces (hs.flatMap ranges)) : AtomsOk hs := by
  intro al hal w c a r hch hr hcr
  obtain ⟨l₁, l₂, rfl, hca, -⟩ := hch
  obtain ⟨h', hh, hn⟩ := hr
  exact (h _ hal a (by simp) r (List.mem_flatMap.mpr ⟨h', hh, next_ranges hn⟩)).resolve_right
    fun hd => hd _ hca hcr

/-- Such ranges are not split wrongly. -/
theorem whole_of_tame {rs : List Match} (hl : (ofList rs).length ≤ 3 ∨ Tame rs) : WholePieces rs := by
  intro al hal
  obtain ⟨out, h1, _, h2⟩ := C06_atoms_partial rs hl
  rw [h1] at hal; cases hal
  exact h2

/-- Nested or disjoint ranges are not split wrongly. -/
theorem whole_of_laminar {rs : List Match} (hl : ∀ a ∈ rs, ∀ b ∈ rs, Laminar a b) : WholePieces rs :=
  whole_of_tame (.inr (tame_of_laminar hl))

theorem ofList_ext {l l' : List Match} (h : ∀ x, x ∈ l ↔ x ∈ l') : ofList l = ofList l' :=
  sorted_ext (sorted_ofList _) (sorted_ofList _) fun x => by rw [mem_ofList, mem_ofList]; exact h x

theorem built_disjoint {n d al D s0} (B : Dfa.Built n d al D s0) {hs : List Hir}
    (ha : AtomsOk hs) (hl : ∀ m, n.Lab m ↔ m ∈ hs.flatMap ranges)
    (hn : ∀ w m, Dfa.Leaves n w m ↔ After hs w m) : Dfa.Uniform n al := by
  intro w c a m
  have : Dfa.Leaves n w = After hs w := by funext m; exact propext (hn w m)
  rw [this]
  refine ha al ?_ w c a m
  rw [← B.alphabet]
  congr 1
  refine ofList_ext fun m => ?_
  rw [← hl, Nfa.mem_labels B.base.wf]

theorem rangesOf_eq (toks : List (TokenDef × Hir)) : (toks.map Prod.snd).flatMap ranges = rangesOf toks := by
  simp [rangesOf, List.flatMap_map]

theorem combined_labels {toks N m acc} (h : Lex.Combined toks N m acc) (l : Match) :
    N.Lab l ↔ l ∈ rangesOf toks := by
  rw [h.labels]; simp [rangesOf]

theorem combined_after {toks N m acc} (h : Lex.Combined toks N m acc) (w : List Char) (l : Match) :
    Dfa.Leaves N w l ↔ After (toks.map Prod.snd) w l := by
  rw [Dfa.Leaves, h.next]
  simp only [After, List.mem_map]
  exact ⟨fun ⟨p, h1, h2⟩ => ⟨_, ⟨p, h1, rfl⟩, h2⟩, fun ⟨_, ⟨p, h1, h3⟩, h2⟩ => ⟨p, h1, h3 ▸ h2⟩⟩

theorem dwalk_iff {d : Dfa} {w : List Char} {t : Nat} : DWalk d w t ↔ d.walk 0 w = some t := by
  constructor
  · intro h
    induction h with
    | nil => rfl
    | snoc _ he ih =>
      rw [Dfa.walk_snoc, ih]
      simp only [Option.bind_some, Dfa.findEdge, he, Option.map_some]
  · have key : ∀ (w v : List Char) (s : Nat), DWalk d v s → d.walk s w = some t → DWalk d (v ++ w) t := by
      intro w
      induction w with
      | nil =>
        intro v s h hw
        simp only [Dfa.walk, Option.some.injEq] at hw; subst hw; simpa using h
      | cons c w ih =>
        intro v s h hw
        simp only [Dfa.walk] at hw
        cases he : d.findEdge s c with
        | none => simp [he] at hw
        | some e =>
          rw [he] at hw
          simpa using ih (v ++ [c]) e.dst (.snoc h he) hw
    intro h
    simpa using key w [] 0 .nil h

/-- C08, the half that needs no condition: whatever NFA state a walk reports is
reachable over the string walked. -/
theorem C08_sound {toks : List (TokenDef × Hir)} {ns : List (TokenDef × Nfa)}
    (hb : Lex.buildNfas toks = .ok ns) {ord : Nfa.Order} (ho : Reorders ord) :
    ∃ d, Dfa.fromNfa (Lex.combine ns).1 ord = .ok d ∧
      ∀ w t u x, DWalk d w t → mget t d.dfaToNfa = some u → x ∈ u →
        Path (Lex.combine ns).1.edges Nfa.START w x := by
  obtain ⟨acc, hc⟩ := Lex.combined hb
  obtain ⟨d, al, D, s0, h1, B⟩ := Dfa.fromNfa_built hc.base (reorders_ok ho)
  refine ⟨d, h1, ?_⟩
  intro w t u x hw hu hx
  obtain ⟨u', h2, h3⟩ := B.walk_sub w [] 0 t B.eqReach_nil.sub (dwalk_iff.mp hw)
  rw [B.spec.map] at hu
  split at hu
  · cases hu
  · rw [h2] at hu; cases hu
    exact h3 x hx

/-- C08, partial: when the pieces of the alphabet fit the ranges, a walk over a non-empty
string ends in a state standing for exactly the NFA states reachable over it, and
there is a walk exactly when some NFA state is reachable.  Missing: token lists
with pieces that do not fit, where it is false (`C08_false`). -/
theorem C08_walk_partial {toks : List (TokenDef × Hir)} {ns : List (TokenDef × Nfa)}
    (hb : Lex.buildNfas toks = .ok ns) (ha : AtomsOk (toks.map Prod.snd))
    {ord : Nfa.Order} (ho : Reorders ord) :
    ∃ d, Dfa.fromNfa (Lex.combine ns).1 ord = .ok d ∧
      (∀ w t, w ≠ [] → DWalk d w t → ∃ u, mget t d.dfaToNfa = some u ∧
        ∀ x, x ∈ u ↔ Path (Lex.combine ns).1.edges Nfa.START w x) ∧
      (∀ w, (∃ t, DWalk d w t) ↔ ∃ x, Path (Lex.combine ns).1.edges Nfa.START w x) := by
  obtain ⟨acc, hc⟩ := Lex.combined hb
  obtain ⟨d, al, D, s0, h1, B⟩ := Dfa.fromNfa_built hc.base (reorders_ok ho)
  have hd := built_disjoint B ha (rangesOf_eq toks ▸ combined_labels hc) (combined_after hc)
  refine ⟨d, h1, ?_, ?_⟩
  · intro w t hw hwalk
    obtain ⟨u, h2, h3⟩ := B.walk_eq hd w [] 0 t B.eqReach_nil (dwalk_iff.mp hwalk)
    refine ⟨u, ?_, h3⟩
    rw [B.spec.map, if_neg (B.walk_ne hw (dwalk_iff.mp hwalk)), h2]
  · intro w
    have := B.walk_isSome hd w [] 0 B.eqReach_nil ⟨0, .nil 0⟩
    simp only [List.nil_append] at this
    rw [show (∃ x, Path (Lex.combine ns).1.edges Nfa.START w x) ↔
      ∃ x, Path (Lex.combine ns).1.edges 0 w x from Iff.rfl, ← this, Option.isSome_iff_exists]
    simp only [dwalk_iff]

/-- No piece lies partly inside a range, decided. -/
def uniformB (al rs : List Match) : Bool :=
  al.all fun a => rs.all fun r => (r.lo ≤ a.lo && a.hi ≤ r.hi) || a.hi ≤ r.lo || r.hi ≤ a.lo

theorem whole_of {rs al : List Match} (h : Overlap.removeOverlap (ofList rs) = .ok al) (hu : uniformB al rs = true) :
    WholePieces rs := by
  intro al' h' a ha r hr
  rw [h] at h'; cases h'
  have := List.all_eq_true.mp (List.all_eq_true.mp hu a ha) r hr
  simp only [Bool.or_eq_true, Bool.and_eq_true, decide_eq_true_eq] at this
  rcases this with (h | h) | h
  · exact .inl fun c hc => by unfold Mem at *; omega
  · exact .inr fun c hc hc' => by unfold Mem at *; omega
  · exact .inr fun c hc hc' => by unfold Mem at *; omega

theorem atomsOk_of {hs : List Hir} {al : List Match}
    (h : Overlap.removeOverlap (ofList (hs.flatMap ranges)) = .ok al)
    (hu : uniformB al (hs.flatMap ranges) = true) : AtomsOk hs :=
  atomsOk_of_whole (whole_of h hu)

/-- Pieces without overlaps do not lie partly inside a range. -/
theorem whole_of_disjoint {rs : List Match}
    (hd : ∀ al, Overlap.removeOverlap (ofList rs) = .ok al → al.Pairwise Disjoint) : WholePieces rs := by
  intro al h a ha r hr
  have hp := hd al h
  by_cases hex : ∃ c, Mem c a ∧ Mem c r
  · obtain ⟨c, hc, hcr⟩ := hex
    obtain ⟨p, hpm, hcp, hw⟩ := C05_refines rs al h r hr c hcr
    left
    obtain ⟨i, hi, rfl⟩ := List.mem_iff_getElem.mp ha
    obtain ⟨j, hj, rfl⟩ := List.mem_iff_getElem.mp hpm
    rcases Nat.lt_trichotomy i j with hij | rfl | hij
    · exact absurd hcp ((List.pairwise_iff_getElem.mp hp) i j hi hj hij c hc)
    · exact hw
    · exact absurd hc ((List.pairwise_iff_getElem.mp hp) j i hj hi hij c hcp)
  · exact .inr fun c hc hcr => hex ⟨c, hc, hcr⟩

/-- `[^\n]`, `[^*]`, `[^_]` and the characters `*`, `_` and `\n`: the pieces overlap, in that some occur twice, and
yet none lies partly inside a range. -/
example : WholePieces [⟨0, 10⟩, ⟨11, 0x110000⟩, ⟨0, 42⟩, ⟨43, 0x110000⟩, ⟨0, 95⟩, ⟨96, 0x110000⟩, ⟨42, 43⟩, ⟨95, 96⟩, ⟨10, 11⟩] :=
  whole_of (al := [⟨0, 10⟩, ⟨11, 42⟩, ⟨10, 11⟩, ⟨11, 42⟩, ⟨43, 95⟩, ⟨42, 43⟩, ⟨43, 95⟩, ⟨95, 96⟩, ⟨96, 0x110000⟩])
    rfl (by decide +kernel)

/-- The sample tokens have nested or disjoint ranges. -/
theorem sample_atoms : AtomsOk (sampleToks.map Prod.snd) :=
  atomsOk_of (al := [⟨97, 98⟩, ⟨98, 99⟩, ⟨99, 100⟩, ⟨100, 102⟩, ⟨102, 103⟩, ⟨103, 105⟩, ⟨105, 106⟩, ⟨106, 123⟩]) rfl
    (by decide +kernel)

example : ∃ ns, Lex.buildNfas sampleToks = .ok ns ∧ AtomsOk (sampleToks.map Prod.snd) :=
  ⟨_, rfl, sample_atoms⟩

/-- Also enough for `AtomsOk`: the ranges possible at each place are equal or disjoint. -/
theorem atomsOk_of_apart {hs : List Hir}
    (h : ∀ w r r', After hs w r → After hs w r' → r = r' ∨ Disjoint r r') : AtomsOk hs := by
  rintro al - w c a r ⟨l₁, l₂, -, hca, ⟨r', hr', hw⟩, -⟩ hr hcr
  rcases h w r r' hr hr' with rfl | hd
  · exact hw
  · exact absurd (hw _ hca) (hd _ hcr)

/-- Text between two characters `c`. -/
def quoted (c : Nat) : Hir := .concat [.lit c, .rep .zeroOrMore (.cls [(0, c - 1), (c + 1, 0x10ffff)]), .lit c]

theorem next_quoted {c : Nat} {w : List Char} {m : Match} (h : Next (quoted c) w m) :
    (w = [] ∧ m = ⟨c, c + 1⟩) ∨ (∃ ch v, w = ch :: v ∧ ch.toNat = c) ∧
      (m = ⟨0, c - 1 + 1⟩ ∨ m = ⟨c + 1, 0x110000⟩ ∨ m = ⟨c, c + 1⟩) := by
  cases h with
  | concatHead h => cases h; exact .inl ⟨rfl, rfl⟩
  | @concatTail _ _ u v _ hu hv =>
    cases hu with
    | @lit ch _ hc =>
      refine .inr ⟨⟨ch, v, rfl, hc⟩, ?_⟩
      have cls : ∀ v, Next (.cls [(0, c - 1), (c + 1, 0x10ffff)]) v m → m = ⟨0, c - 1 + 1⟩ ∨ m = ⟨c + 1, 0x110000⟩ := by
        intro v hv
        cases hv with
        | cls hr =>
          simp only [List.mem_cons, List.not_mem_nil, or_false] at hr
          rcases hr with rfl | rfl
          · exact .inl rfl
          · exact .inr rfl
      cases hv with
      | concatHead h =>
        cases h with
        | repFirst h => exact (cls _ h).imp_right .inl
        | repMore _ _ h => exact (cls _ h).imp_right .inl
      | concatTail _ h =>
        cases h with
        | concatHead h => cases h; exact .inr (.inr rfl)
        | concatTail _ h => cases h

/-- The tokens `"…"`, `'…'`, `*…*` and `(`: the piece `[40, 42)` of the alphabet lies partly inside `(`, which
does no harm, since no place allows both `(` and a range around that piece. -/
def quoteHirs : List Hir := [quoted 34, quoted 39, quoted 42, .lit 40]

theorem quote_atoms : AtomsOk quoteHirs := by
  refine atomsOk_of_apart fun w r r' h h' => ?_
  have key : ∀ r, After quoteHirs w r →
      (w = [] ∧ r ∈ [⟨34, 35⟩, ⟨39, 40⟩, ⟨42, 43⟩, ⟨40, 41⟩]) ∨ ∃ ch v, w = ch :: v ∧ 0 < ch.toNat ∧
        (r = ⟨0, ch.toNat - 1 + 1⟩ ∨ r = ⟨ch.toNat + 1, 0x110000⟩ ∨ r = ⟨ch.toNat, ch.toNat + 1⟩) := by
    rintro r ⟨h, hh, hn⟩
    have q : ∀ c, 0 < c → (⟨c, c + 1⟩ : Match) ∈ [⟨34, 35⟩, ⟨39, 40⟩, ⟨42, 43⟩, (⟨40, 41⟩ : Match)] → Next (quoted c) w r →
        (w = [] ∧ r ∈ [⟨34, 35⟩, ⟨39, 40⟩, ⟨42, 43⟩, ⟨40, 41⟩]) ∨ ∃ ch v, w = ch :: v ∧ 0 < ch.toNat ∧
        (r = ⟨0, ch.toNat - 1 + 1⟩ ∨ r = ⟨ch.toNat + 1, 0x110000⟩ ∨ r = ⟨ch.toNat, ch.toNat + 1⟩) := by
      intro c hc hm hn
      rcases next_quoted hn with ⟨rfl, rfl⟩ | ⟨⟨ch, v, rfl, rfl⟩, hr⟩
      · exact .inl ⟨rfl, hm⟩
      · exact .inr ⟨ch, v, rfl, hc, hr⟩
    simp only [quoteHirs, List.mem_cons, List.not_mem_nil, or_false] at hh
    rcases hh with rfl | rfl | rfl | rfl
    · exact q 34 (by omega) (by simp) hn
    · exact q 39 (by omega) (by simp) hn
    · exact q 42 (by omega) (by simp) hn
    · cases hn; exact .inl ⟨rfl, by simp⟩
  rcases key r h with ⟨rfl, hr⟩ | ⟨ch, v, rfl, h0, hr⟩
  · rcases key r' h' with ⟨-, hr'⟩ | ⟨ch, v, hw, -⟩
    · have : ∀ x ∈ [⟨34, 35⟩, ⟨39, 40⟩, ⟨42, 43⟩, (⟨40, 41⟩ : Match)], ∀ y ∈ [⟨34, 35⟩, ⟨39, 40⟩, ⟨42, 43⟩, (⟨40, 41⟩ : Match)],
          x = y ∨ x.hi ≤ y.lo ∨ y.hi ≤ x.lo := by decide
      refine (this r hr r' hr').imp_right fun h c hc hc' => ?_
      unfold Mem at *; omega
    · cases hw
  · rcases key r' h' with ⟨hw, -⟩ | ⟨ch', v', hw, -, hr'⟩
    · cases hw
    · simp only [List.cons.injEq] at hw
      obtain ⟨rfl, rfl⟩ := hw
      rcases hr with rfl | rfl | rfl <;> rcases hr' with rfl | rfl | rfl <;>
        first
        | exact .inl rfl
        | (right; intro c hc hc'; simp only [Mem] at hc hc'; omega)

example : AtomsOk quoteHirs ∧ ¬ WholePieces (quoteHirs.flatMap ranges) := by
  refine ⟨quote_atoms, fun h => ?_⟩
  have hal : Overlap.removeOverlap (ofList (quoteHirs.flatMap ranges)) = .ok [⟨0, 34⟩, ⟨35, 39⟩, ⟨34, 35⟩, ⟨35, 39⟩, ⟨40, 42⟩,
    ⟨39, 40⟩, ⟨40, 41⟩, ⟨41, 42⟩, ⟨42, 43⟩, ⟨43, 0x110000⟩] := by rfl
  rcases h _ hal ⟨40, 42⟩ (by simp) ⟨40, 41⟩ (by decide +kernel) with h | h
  · have := h 41 ⟨by decide, by decide⟩
    simp only [Mem] at this; omega
  · exact h 40 ⟨by decide, by decide⟩ ⟨by decide, by decide⟩
/-- Tokens `c`, `[a-d]`, `[b-j]`, `[c-t]`, whose ranges the generator splits wrongly. -/
def badToks : List (TokenDef × Hir) :=
  [(tok "c", .lit 99), (tok "d", .cls [(97, 100)]), (tok "j", .cls [(98, 106)]),
   (tok "t", .cls [(99, 116)])]

/-- C08 is false without the condition: over "c" the NFA reaches the accepting
state of the token `c` (state 2), but the DFA walk ends in a state that does not
contain it. -/
theorem C08_false : ∃ ns d t u, Lex.buildNfas badToks = .ok ns ∧
    Dfa.fromNfa (Lex.combine ns).1 (fun _ l => l) = .ok d ∧ DWalk d ['c'] t ∧
    mget t d.dfaToNfa = some u ∧ 2 ∉ u ∧ Path (Lex.combine ns).1.edges Nfa.START ['c'] 2 := by
  refine ⟨_, _, 3, [5, 6, 10, 11, 15, 16], rfl, rfl, ?_, ?_, ?_, ?_⟩
  · rw [dwalk_iff]; decide +kernel
  · decide +kernel
  · decide
  · obtain ⟨acc, _, h2, _, h4, h5⟩ := C16_combine (toks := badToks) rfl
    obtain ⟨i, h, h6, h7⟩ := h4 2 (tok "c") (by decide +kernel)
    rw [h6, h5 i _ h h7]
    have : h = .lit 99 := by
      match i, h7 with
      | 0, h7 => simp [badToks] at h7; exact h7.symm
      | 1, h7 => simp [badToks, tok] at h7
      | 2, h7 => simp [badToks, tok] at h7
      | 3, h7 => simp [badToks, tok] at h7
      | i + 4, h7 => simp [badToks] at h7
    subst this
    exact .lit (by decide)

/-- C09, partial: exact description of `DFA::test` for regexes that the pieces of
the alphabet fit.  It is not the language of the regex (`C09_false`) but: `s` is non-empty,
ASCII, and some extension of `s` matches. -/
theorem C09_test_partial {h : Hir} (hv : NonVoid h) {n : Nfa} (hn : Nfa.fromRegex h = .ok n)
    (ha : AtomsOk [h]) {ord : Nfa.Order} (ho : Reorders ord) :
    ∃ d, Dfa.fromNfa n ord = .ok d ∧ ∀ s, d.test s = true ↔
      s ≠ [] ∧ (∀ c ∈ s, c.toNat < 128) ∧ ∃ v, Matches h (s ++ v) := by
  have g := Nfa.fromRegex_good hn
  obtain ⟨d, al, D, s0, h1, B⟩ := Dfa.fromNfa_built g.base (reorders_ok ho)
  have hd := built_disjoint B ha (by simpa using Nfa.lab_fromRegex hn)
    fun w m => ⟨fun ⟨e, he, hl, hp⟩ => ⟨h, by simp, g.next w e m he hl hp⟩, fun ⟨h', hh, hx⟩ => by
      obtain rfl := List.mem_singleton.mp hh
      exact g.hit w m hx⟩
  refine ⟨d, h1, fun s => ?_⟩
  rw [B.test_iff s, B.walk_isSome hd s [] 0 B.eqReach_nil ⟨0, .nil 0⟩]
  have : (∃ x, Path n.edges 0 ([] ++ s) x) ↔ ∃ v, Matches h (s ++ v) := by
    simp only [List.nil_append]
    constructor
    · rintro ⟨x, hp⟩
      obtain ⟨v, hp'⟩ := g.co hv x (g.base.path_lt hp g.base.start)
      exact ⟨v, (g.lang _).mp (hp.trans hp')⟩
    · rintro ⟨v, hm⟩
      exact Dfa.path_prefix ((g.lang _).mpr hm)
  rw [this]

/-- C09 is false of the code: for the regex `ab`, `test("a")` is true. -/
theorem C09_false : ∃ n d, Nfa.fromRegex (.concat [.lit 97, .lit 98]) = .ok n ∧
    Dfa.fromNfa n (fun _ l => l) = .ok d ∧ d.test ['a'] = true ∧
    ¬ Matches (.concat [.lit 97, .lit 98]) ['a'] := by
  refine ⟨_, _, rfl, rfl, by decide +kernel, ?_⟩
  have key : ∀ w, Matches (.concat [.lit 97, .lit 98]) w → w.length = 2 := by
    intro w hm
    cases hm with
    | concatCons h1 h2 =>
      cases h1
      cases h2 with
      | concatCons h3 h4 => cases h3; cases h4; rfl
  intro hm
  exact absurd (key _ hm) (by decide)

example : NonVoid (.concat [.lit 97, .lit 98]) :=
  .concat (by
    intro h hh
    simp only [List.mem_cons, List.not_mem_nil, or_false] at hh
    rcases hh with rfl | rfl
    · exact .lit 'a'
    · exact .lit 'b')
example : AtomsOk [.concat [.lit 97, .lit 98]] :=
  atomsOk_of_whole <| whole_of_laminar (by
    intro a ha b hb
    simp only [List.flatMap_cons, List.flatMap_nil, ranges, rangesAll, List.cons_append, List.nil_append, List.append_nil, List.mem_cons,
      List.not_mem_nil, or_false] at ha hb
    rcases ha with rfl | rfl <;> rcases hb with rfl | rfl <;>
      simp only [Laminar, Disjoint, Within, Mem] <;>
      first
        | (right; left; intro c hc; omega)
        | (left; intro c hc; omega))

end Verif.Props
