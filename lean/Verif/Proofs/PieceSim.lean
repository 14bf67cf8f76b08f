import Verif.Proofs.PieceCompile
import Verif.Proofs.LexSpec

/-! The automata of regexes and token lists on words of pieces: as NfaSim and Combine. -/

namespace Verif
open Spec
namespace Nfa

theorem bare_pmatches {h : Hir} (hb : BareEmpty h) (w : List Match) : PMatches h w ↔ w = [] := by
  induction hb with
  | empty => exact ⟨fun hm => by cases hm; rfl, fun hw => hw ▸ .empty⟩
  | group _ ih => exact ⟨fun hm => by cases hm with | group h => exact ih.mp h, fun hw => .group (ih.mpr hw)⟩

theorem bare_pnext {h : Hir} (hb : BareEmpty h) (w : List Match) (m : Match) : ¬ PNext h w m := by
  induction hb with
  | empty => intro h; cases h
  | group _ ih => intro h; cases h with | group h => exact ih h

/-- What `from_regex` builds, on words of pieces. -/
structure PGood (n : Nfa) (L : List Match → Prop) (K : List Match → Match → Prop) : Prop where
  lang : ∀ w, PPath n.edges 0 w 1 ↔ L w
  next : ∀ w e m, e ∈ n.edges → e.label = some m → PPath n.edges 0 w e.src → K w m
  hit : ∀ w m, K w m → ∃ e ∈ n.edges, e.label = some m ∧ PPath n.edges 0 w e.src

theorem fromRegex_pgood {h : Hir} {n : Nfa} (hc : fromRegex h = .ok n) :
    n.PGood (PMatches h) (PNext h) := by
  unfold fromRegex at hc
  cases h1 : compile h init FINAL with
  | error e => simp [h1, bind, Except.bind] at hc
  | ok p =>
    obtain ⟨n1, r⟩ := p
    simp only [h1, bind, Except.bind, pure, Except.pure, Except.ok.injEq] at hc
    subst hc
    have hf := compile_pfrag h init FINAL n1 r h1 (by simp [init, FINAL])
    -- uniform: an extension with entry `i`
    have key : ∃ es i, r.getD FINAL = i ∧ PFrag init n1 i FINAL es (PMatches h) (PNext h) (NonVoid h) := by
      cases r with
      | none =>
        obtain ⟨rfl, hb⟩ := hf
        exact ⟨[], 1, rfl, (PFrag.nil init 1 _).imp (fun w => (bare_pmatches hb w).symm)
          (fun w m => ⟨False.elim, bare_pnext hb w m⟩) id⟩
      | some i => obtain ⟨es, hf⟩ := hf; exact ⟨es, i, rfl, hf⟩
    obtain ⟨es, i, hi, f⟩ := key
    rw [hi]
    clear hf hi h1
    have hlen := f.ext.len
    have hd := f.dst
    have he := f.entry
    have hs := f.ext.src
    have hedges := f.ext.edges
    have ilen : init.states.length = 2 := rfl
    have iedges : init.edges = [] := rfl
    rw [ilen] at hlen hd he hs
    rw [iedges, List.nil_append] at hedges
    have ho : n1.Open START := open_ext f.ext (by simp [START, ilen]) (by simp [START, ilen]) rfl
    have hF : FINAL = 1 := rfl
    have hS : START = 0 := rfl
    rw [hF] at hd he
    have hE : (n1.pushEdge START none i).edges = es ++ [⟨0, none, i⟩] := by simp [hedges, START]
    have r1 : ∀ s w, s ≠ 0 → (PPath (es ++ [⟨0, none, i⟩]) s w 1 ↔ PPath es s w 1) := by
      intro s w hs0
      constructor
      · intro p
        refine PPath.restrict (P := fun s => s ≠ 0) ?_ hs0 p
        intro e he' hne
        rcases List.mem_append.mp he' with he' | he'
        · exact ⟨he', by have := hd e he'; omega⟩
        · simp at he'; subst he'; simp at hne
      · exact fun p => p.mono (by simp_all)
    have ri : ∀ w, PPath (es ++ [⟨0, none, i⟩]) 0 w 1 ↔ PPath es i w 1 := by
      intro w
      rw [← r1 i w (by omega)]
      constructor
      · intro p
        cases p with
        | @eps e _ _ _ h1 h2 h3 p =>
          rcases List.mem_append.mp h1 with h1 | h1
          · have := hs _ h1; omega
          · simp at h1; subst h1; exact p
        | chr h1 h2 h3 _ _ p =>
          rcases List.mem_append.mp h1 with h1 | h1
          · have := hs _ h1; omega
          · simp at h1; subst h1; simp at h3
      · intro p
        exact .eps (e := ⟨0, none, i⟩) (by simp) rfl rfl p
    refine ⟨?_, ?_, ?_⟩
    · rw [hE]
      intro w
      rw [ri]; exact f.lang w
    · rw [hE]
      intro w e m he' hl p
      have hes : e ∈ es := by
        rcases List.mem_append.mp he' with he' | he'
        · exact he'
        · simp at he'; subst he'; simp at hl
      have hsx := hs e hes
      generalize hx : e.src = x at p
      cases p with
      | nil => omega
      | @eps e' _ _ _ h1 h2 h3 p =>
        rcases List.mem_append.mp h1 with h1 | h1
        · have := hs _ h1; omega
        · simp at h1; subst h1
          have p' : PPath es i w x := by
            refine PPath.restrict (P := fun s => s ≠ 0) ?_ (show i ≠ 0 by omega) p
            intro e he' hne
            rcases List.mem_append.mp he' with he' | he'
            · exact ⟨he', by have := hd e he'; omega⟩
            · simp at he'; subst he'; simp at hne
          exact f.next w e m hes hl (hx ▸ p')
      | chr h1 h2 h3 _ _ p =>
        rcases List.mem_append.mp h1 with h1 | h1
        · have := hs _ h1; omega
        · simp at h1; subst h1; simp at h3
    · rw [hE]
      intro w m hk
      obtain ⟨e, he', hl, p⟩ := f.hit w m hk
      exact ⟨e, by simp [he'], hl, .eps (e := ⟨0, none, i⟩) (by simp) rfl rfl (p.mono (by simp_all))⟩
theorem ppath_snoc {es : List NEdge} {s t : Nat} {w : List Match} {c : Match} :
    PPath es s (w ++ [c]) t ↔ ∃ u, PPath es s w u ∧ ∃ e ∈ es, ∃ m, e.src = u ∧ e.label = some m ∧
      (m.lo ≤ c.lo ∧ c.hi ≤ m.hi) ∧ EpsReach es e.dst t := by
  constructor
  · intro p
    obtain ⟨u, p1, p2⟩ := p.splitWord
    have : ∀ u v, PPath es u v t → v = [c] → ∃ u', EpsReach es u u' ∧ ∃ e ∈ es, ∃ m, e.src = u' ∧
        e.label = some m ∧ (m.lo ≤ c.lo ∧ c.hi ≤ m.hi) ∧ EpsReach es e.dst t := by
      clear p p2
      intro u v p hv
      induction p with
      | nil => simp at hv
      | eps h1 h2 h3 _ ih =>
        obtain ⟨u', q, h⟩ := ih hv
        exact ⟨u', .step h1 h2 h3 q, h⟩
      | chr h1 h2 h3 h4 h5 q _ =>
        simp only [List.cons.injEq] at hv
        obtain ⟨rfl, rfl⟩ := hv
        exact ⟨_, .refl _, _, h1, _, h2, h3, ⟨h4, h5⟩, q.toEps rfl⟩
    obtain ⟨u', q, h⟩ := this u _ p2 rfl
    refine ⟨u', ?_, h⟩
    simpa using p1.trans q.toPPath
  · rintro ⟨u, p, e, he, m, rfl, hl, hm, q⟩
    obtain ⟨h1, h2⟩ := hm
    exact p.trans (.chr he rfl hl h1 h2 q.toPPath)

end Nfa

namespace Lex

theorem ppath_shift {es es' : List NEdge} {o : Nat} (h : ∀ e ∈ es, shiftE o e ∈ es') {s w t}
    (p : PPath es s w t) : PPath es' (s + o) w (t + o) := by
  induction p with
  | nil s => exact .nil _
  | eps a b c _ ih => exact .eps (h _ a) (by simp [shiftE, b]) (by simpa [shiftE] using c) (by simpa [shiftE] using ih)
  | chr a b c d e _ ih =>
    exact .chr (h _ a) (by simp [shiftE, b]) (by simpa [shiftE] using c) d e (by simpa [shiftE] using ih)

theorem ppath_unshift {es es' : List NEdge} {o len : Nat}
    (h : ∀ e ∈ es', o ≤ e.src → e.src < o + len → ∃ e' ∈ es, e = shiftE o e' ∧ e'.dst < len) {s' w t'}
    (p : PPath es' s' w t') : ∀ s < len, s' = s + o → ∃ t < len, t' = t + o ∧ PPath es s w t := by
  induction p with
  | nil s' => intro s hs hs'; exact ⟨s, hs, hs', .nil _⟩
  | eps a b c _ ih =>
    intro s hs hs'
    obtain ⟨e', he', rfl, hd⟩ := h _ a (by omega) (by omega)
    obtain ⟨t, ht, h1, h2⟩ := ih e'.dst hd rfl
    exact ⟨t, ht, h1, .eps he' (by simp [shiftE] at b; omega) (by simpa [shiftE] using c) h2⟩
  | chr a b c d e _ ih =>
    intro s hs hs'
    obtain ⟨e', he', rfl, hd⟩ := h _ a (by omega) (by omega)
    obtain ⟨t, ht, h1, h2⟩ := ih e'.dst hd rfl
    exact ⟨t, ht, h1, .chr he' (by simp [shiftE] at b; omega) (by simpa [shiftE] using c) d e h2⟩

theorem ppath_comp {ns : List (TokenDef × Nfa)} (h : ∀ p ∈ ns, CompOk p.2)
    {c : Nat × TokenDef × Nfa} (hc : c ∈ comps 1 ns) {s : Nat} (hs : s < c.2.2.states.length)
    {w x} : PPath (combine ns).1.edges (s + c.1) w x ↔
      ∃ y < c.2.2.states.length, x = y + c.1 ∧ PPath c.2.2.edges s w y := by
  constructor
  · intro p
    exact ppath_unshift (comp_edge h hc) p s hs rfl
  · rintro ⟨y, hy, rfl, p⟩
    refine ppath_shift ?_ p
    intro e he
    rw [combine_nfa]
    exact List.mem_append_right _ (mem_compEdges.mpr ⟨c, hc, e, he, rfl⟩)

theorem ppath_start {ns : List (TokenDef × Nfa)} (h : ∀ p ∈ ns, CompOk p.2) {w x} :
    PPath (combine ns).1.edges 0 w x ↔ (w = [] ∧ x = 0) ∨
      ∃ c ∈ comps 1 ns, ∃ y < c.2.2.states.length, x = y + c.1 ∧ PPath c.2.2.edges 0 w y := by
  constructor
  · intro p
    have edge0 : ∀ e ∈ (combine ns).1.edges, e.src = 0 → ∃ c ∈ comps 1 ns, e = ⟨0, none, c.1⟩ := by
      intro e he hs
      rw [combine_nfa] at he
      rcases List.mem_append.mp he with he | he
      · obtain ⟨d, hd, rfl⟩ := List.mem_map.mp he
        exact ⟨d, hd, rfl⟩
      · obtain ⟨d, hd, e', he', rfl⟩ := mem_compEdges.mp he
        have := comps_ge _ _ d hd
        simp only [shiftE] at hs; omega
    cases p with
    | nil => exact .inl ⟨rfl, rfl⟩
    | eps a b c' p =>
      obtain ⟨c, hc, rfl⟩ := edge0 _ a b
      have hl := (h _ (comps_mem _ _ c hc)).len
      refine .inr ⟨c, hc, ?_⟩
      exact (ppath_comp h hc (s := 0) (by omega)).mp (by simpa using p)
    | chr a b c' _ _ p =>
      obtain ⟨c, hc, rfl⟩ := edge0 _ a b
      simp at c'
  · rintro (⟨rfl, rfl⟩ | ⟨c, hc, hp⟩)
    · exact .nil _
    · have hl := (h _ (comps_mem _ _ c hc)).len
      have := (ppath_comp h hc (s := 0) (by omega)).mpr hp
      refine .eps (e := ⟨0, none, c.1⟩) ?_ rfl rfl (by simpa using this)
      rw [combine_nfa]
      exact List.mem_append_left _ (List.mem_map.mpr ⟨c, hc, rfl⟩)

/-- Language of the combined automaton on words of pieces. -/
structure PCombined (toks : List (TokenDef × Hir)) (N : Nfa) (acc : Nat → Nat) : Prop where
  lang : ∀ i t h, toks[i]? = some (t, h) → ∀ w, PPath N.edges 0 w (acc i) ↔ PMatches h w
  next : ∀ w l, (∃ e ∈ N.edges, e.label = some l ∧ PPath N.edges 0 w e.src) ↔ ∃ p ∈ toks, PNext p.2 w l

theorem pcombined {toks : List (TokenDef × Hir)} {ns : List (TokenDef × Nfa)}
    (hb : buildNfas toks = .ok ns) {acc : Nat → Nat} (hc : Combined toks (combine ns).1 (combine ns).2 acc) :
    PCombined toks (combine ns).1 acc := by
  have hf := buildNfas_spec toks ns hb
  have hlen := hf.length_eq
  have hget : ∀ i (h1 : i < toks.length) (h2 : i < ns.length),
      toks[i].1 = ns[i].1 ∧ Nfa.fromRegex toks[i].2 = .ok ns[i].2 := by
    intro i h1 h2
    have := (List.forall₂_iff_get.mp hf).2 i h1 h2
    simpa using this
  have hok : ∀ p ∈ ns, CompOk p.2 := by
    intro p hp
    obtain ⟨i, hi, rfl⟩ := List.mem_iff_getElem.mp hp
    exact (Nfa.fromRegex_good (hget i (by omega) hi).2).compOk
  have hcl : (comps 1 ns).length = toks.length := by rw [length_comps, hlen]
  have hcs : ∀ i (h1 : i < (comps 1 ns).length) (h2 : i < ns.length), (comps 1 ns)[i].2 = ns[i] := by
    intro i h1 h2
    have : ((comps 1 ns).map Prod.snd)[i]'(by simpa using h1) = ns[i] := by
      simp only [comps_map]
    simpa using this
  have hacc : ∀ i (h : i < (comps 1 ns).length), acc i = (comps 1 ns)[i].1 + 1 := by
    intro i h
    have h1 := hc.tokens
    rw [combine_tokens hok] at h1
    have := congrArg (fun l => (l[i]?).map Prod.fst) h1
    simp [List.getElem?_eq_getElem h, List.getElem?_range (show i < toks.length by omega)] at this
    exact this.symm
  refine ⟨?_, ?_⟩
  · intro i t h hi w
    have hi2 : i < toks.length := (List.getElem?_eq_some_iff.mp hi).1
    have hti := (List.getElem?_eq_some_iff.mp hi).2
    have hic : i < (comps 1 ns).length := by omega
    have hg := hget i hi2 (by omega)
    rw [hti] at hg
    have hgood := Nfa.fromRegex_pgood hg.2
    rw [hacc i hic, ppath_start hok, ← hgood.lang w]
    have hmem : (comps 1 ns)[i] ∈ comps 1 ns := List.getElem_mem _
    constructor
    · rintro (⟨_, h0⟩ | ⟨c, hc, y, hy, heq, hp⟩)
      · omega
      · have hl := (hok _ (comps_mem _ _ _ hmem)).len
        have : c = (comps 1 ns)[i] :=
          comps_eq_of_overlap (x := y + c.1) hc hmem (by omega) (by omega) (by omega) (by omega)
        subst this
        have hy1 : y = 1 := by omega
        rw [hy1, hcs i hic (by omega)] at hp
        exact hp
    · intro hp
      refine .inr ⟨_, hmem, 1, ?_, by omega, ?_⟩
      · have hl := (hok _ (comps_mem _ _ _ hmem)).len; omega
      · rw [hcs i hic (by omega)]; exact hp
  · intro w l
    constructor
    · rintro ⟨e, he, hl, hp⟩
      rw [combine_nfa] at he
      rcases List.mem_append.mp he with he | he
      · obtain ⟨d, hd, rfl⟩ := List.mem_map.mp he
        simp at hl
      obtain ⟨c, hc, e', he', rfl⟩ := mem_compEdges.mp he
      have hge := comps_ge _ _ c hc
      have hb := (hok _ (comps_mem _ _ c hc)).bound e' he'
      rcases (ppath_start hok).mp hp with ⟨_, h0⟩ | ⟨d, hd, y, hy, heq, hp'⟩
      · simp only [shiftE] at h0; omega
      · simp only [shiftE] at heq hl
        have : c = d := comps_eq_of_overlap (x := y + d.1) hc hd (by omega) (by omega) (by omega) (by omega)
        subst this
        have hye : y = e'.src := by omega
        subst hye
        obtain ⟨i, hi, rfl⟩ := List.mem_iff_getElem.mp hc
        have hi2 : i < toks.length := by omega
        have hg := hget i hi2 (by omega)
        rw [hcs i hi (by omega)] at hp' he'
        exact ⟨_, List.getElem_mem hi2, (Nfa.fromRegex_pgood hg.2).next w e' l he' hl hp'⟩
    · rintro ⟨p, hp, hn⟩
      obtain ⟨i, hi, rfl⟩ := List.mem_iff_getElem.mp hp
      have hg := hget i hi (by omega)
      obtain ⟨e, he, hl, hpath⟩ := (Nfa.fromRegex_pgood hg.2).hit w l hn
      have hic : i < (comps 1 ns).length := by omega
      have hmem : (comps 1 ns)[i] ∈ comps 1 ns := List.getElem_mem _
      rw [← hcs i hic (by omega)] at he hpath
      refine ⟨shiftE (comps 1 ns)[i].1 e, ?_, hl, ?_⟩
      · rw [combine_nfa]
        exact List.mem_append_right _ (mem_compEdges.mpr ⟨_, hmem, e, he, rfl⟩)
      · exact (ppath_start hok).mpr (.inr ⟨_, hmem, e.src,
          ((hok _ (comps_mem _ _ _ hmem)).bound e he).1, rfl, hpath⟩)

end Lex
end Verif
