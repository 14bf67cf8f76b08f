import Verif.Proofs.ProgramOk
import Verif.Spec.Usable
import Verif.Props.TsLex
import Mathlib.Data.List.Nodup
import Mathlib.Data.List.Perm.Subperm

/-! # From the conditions on a grammar to those on its lexer -/

namespace Verif
open Spec

namespace Overlap

/-- What holds of the ends of all ranges holds of the ends of all parts. -/
theorem Ins.ends {P : Nat → Prop} {r l l'} (h : Ins r l l') (hr : P r.lo ∧ P r.hi) (hl : ∀ p ∈ l, P p.lo ∧ P p.hi) :
    ∀ p ∈ l', P p.lo ∧ P p.hi := by
  have hmin : ∀ a b, P a → P b → P (min a b) := fun a b ha hb => by rcases Nat.le_total a b with h | h <;> simp [h, ha, hb]
  have hmax : ∀ a b, P a → P b → P (max a b) := fun a b ha hb => by rcases Nat.le_total a b with h | h <;> simp [h, ha, hb]
  induction h with
  | empty _ => exact hl
  | nil _ => simpa using hr
  | skip _ _ _ ih =>
    simp only [List.mem_cons, forall_eq_or_imp] at hl ⊢
    exact ⟨hl.1, ih hr hl.2⟩
  | same _ => exact hl
  | split _ _ _ _ ih1 ih2 =>
    simp only [List.mem_cons, forall_eq_or_imp] at hl ⊢
    obtain ⟨⟨o1, o2⟩, hl⟩ := hl
    obtain ⟨r1, r2⟩ := hr
    exact ⟨⟨hmin _ _ r1 o1, hmax _ _ r1 o1⟩, ih2 ⟨hmin _ _ r2 o2, hmax _ _ r2 o2⟩ (ih1 ⟨hmax _ _ r1 o1, hmin _ _ r2 o2⟩ hl)⟩

theorem InsAll.ends {P : Nat → Prop} {rs l l'} (h : InsAll rs l l') (hr : ∀ p ∈ rs, P p.lo ∧ P p.hi)
    (hl : ∀ p ∈ l, P p.lo ∧ P p.hi) : ∀ p ∈ l', P p.lo ∧ P p.hi := by
  induction h with
  | nil => exact hl
  | cons h1 _ ih =>
    simp only [List.mem_cons, forall_eq_or_imp] at hr
    exact ih hr.2 (h1.ends hr.1 hl)

theorem removeOverlap_ends {P : Nat → Prop} {rs al : List Match} (h : removeOverlap rs = .ok al)
    (hr : ∀ p ∈ rs, P p.lo ∧ P p.hi) : ∀ p ∈ al, P p.lo ∧ P p.hi := by
  obtain ⟨l, h1, h2⟩ := removeOverlap_ins rs
  rw [h] at h2; cases h2
  intro p hp
  exact h1.ends hr (by simp) p (List.mem_filter.mp hp).1

end Overlap

/-- Disjoint non-empty ranges that begin below `max` are at most `max` many. -/
theorem disjoint_count {max : Nat} {al : List Match} (hd : al.Pairwise Disjoint) (hne : ∀ a ∈ al, a.lo < a.hi)
    (hlo : ∀ a ∈ al, a.lo < max) : al.length ≤ max := by
  have hn : (al.map Match.lo).Nodup := by
    rw [List.Nodup, List.pairwise_map]
    refine hd.imp_of_mem fun {a b} ha hb h e => ?_
    exact h a.lo ⟨Nat.le_refl _, hne a ha⟩ ⟨by omega, by have := hne b hb; omega⟩
  have hs : al.map Match.lo ⊆ List.range max := by
    intro x hx
    obtain ⟨a, ha, rfl⟩ := List.mem_map.mp hx
    exact List.mem_range.mpr (hlo a ha)
  have := (List.subperm_of_subset hn hs).length_le
  simpa using this

namespace Lex

/-- The generated lexer fits into the tables if the ranges of its tokens do. -/
theorem Made.covered {toks lx N acc al D s0 max} (M : Made toks lx N acc al D s0) 
    (hfew : ∀ al, Overlap.removeOverlap (ofList (rangesOf toks)) = .ok al → al.length ≤ max)
    (hin : ∀ m ∈ rangesOf toks, m.lo < max ∧ (m.hi < max ∨ m.hi = 0x110000)) (h255 : 255 ≤ max) {input : Str}
    (hlt : input.length ≤ max) : Props.Covered max (LexGen.Tables.new lx) input := by
  have hal : al.length ≤ max := by
    refine hfew al ?_
    rw [← M.built.alphabet]
    congr 1
    refine Props.ofList_ext fun m => ?_
    rw [← Props.combined_labels M.comb, Nfa.mem_labels M.built.base.wf]
  have hlo : ∀ a ∈ al, a.lo < max := by
    intro a ha
    have := Overlap.removeOverlap_ends (P := fun x => x < max ∨ x = 0x110000) M.built.alphabet (fun p hp => ?_) a ha
    · have := M.built.nonempty a ha
      omega
    · have hp := (Props.combined_labels M.comb p).mp ((Nfa.mem_labels M.built.base.wf).mp (mem_ofList.mp hp))
      have := hin p hp
      omega
  have hst : ∀ st ∈ (LexGen.Tables.new lx).states, ∃ t, t < D.length ∧ st = LexGen.State.fromLexState lx.dfa t := by
    intro st hst
    simp only [LexGen.Tables.new, List.mem_map, List.mem_range] at hst
    obtain ⟨t, ht, rfl⟩ := hst
    exact ⟨t, M.built.spec.len ▸ ht, rfl⟩
  refine ⟨h255, hlt, fun st h => ?_, fun st h r hr => ?_⟩
  · obtain ⟨t, ht, rfl⟩ := hst st h
    have hb := M.built.spec.iter t D[t] (List.getElem?_eq_getElem ht)
    have h1 := hb.length_eq
    have h2 := List.length_filter_le (fun l => !(Dfa.tr N D[t] l).isEmpty) al
    simp only [LexGen.State.fromLexState, List.length_map]
    omega
  · obtain ⟨t, ht, rfl⟩ := hst st h
    have hb := M.built.spec.iter t D[t] (List.getElem?_eq_getElem ht)
    simp only [LexGen.State.fromLexState, List.mem_map] at hr
    obtain ⟨e, he, rfl⟩ := hr
    obtain ⟨l, hl, -, rfl, -⟩ := Dfa.forall₂_mem_right hb he
    exact Nat.le_of_lt (hlo _ (List.mem_filter.mp hl).1)

end Lex

namespace Grammar

theorem tokenDefs_mem {rx : Str → Option Hir} : ∀ {i : Nat} {ss : List Sym} {ds : List (TokenDef × Hir)},
    tokenDefs rx i ss = .ok ds → ∀ h, (∃ d ∈ ds, d.2 = h) ↔
      (∃ l, Sym.strLit l ∈ ss ∧ h = litHir l) ∨ ∃ r, Sym.regex r ∈ ss ∧ rx r = some h
  | i, [], ds, hd => by
    simp only [tokenDefs, Except.ok.injEq] at hd
    subst hd; simp
  | i, s :: ss, ds, hd => by
    intro h
    simp only [tokenDefs] at hd
    cases h1 : tokenDefWithRegex rx i s with
    | error e => simp [h1, bind, Except.bind] at hd
    | ok d =>
      cases h2 : tokenDefs rx (i + 1) ss with
      | error e => simp [h1, h2, bind, Except.bind] at hd
      | ok ds' =>
        have ih := tokenDefs_mem h2 h
        simp only [h1, h2, bind, Except.bind, pure, Except.pure] at hd
        cases s with
        | strLit l =>
          simp only [tokenDefWithRegex, Except.ok.injEq] at h1
          subst h1
          simp only [Except.ok.injEq] at hd
          subst hd
          simp only [List.mem_cons, or_and_right, exists_or, exists_eq_left, ih, Sym.strLit.injEq, reduceCtorEq, false_and, false_or, or_assoc, eq_comm (a := litHir l)]
        | regex r =>
          simp only [tokenDefWithRegex] at h1
          cases hr : rx r with
          | none => simp [hr] at h1
          | some x =>
            simp only [hr, Except.ok.injEq] at h1
            subst h1
            simp only [Except.ok.injEq] at hd
            subst hd
            simp [ih, or_and_right, exists_or, hr, or_left_comm]
        | _ =>
          simp only [tokenDefWithRegex, Except.ok.injEq] at h1
          subst h1
          simp only [Except.ok.injEq] at hd
          subst hd
          simpa using ih

theorem ranges_litHir (l : Str) (m : Match) : m ∈ ranges (litHir l) ↔ ∃ c ∈ l, m = ⟨c.toNat, c.toNat + 1⟩ := by
  have all : ∀ l : Str, m ∈ rangesAll (l.map fun c => .lit c.toNat) ↔ ∃ c ∈ l, m = ⟨c.toNat, c.toNat + 1⟩ := by
    intro l
    induction l with
    | nil => simp [rangesAll]
    | cons c l ih => simp [rangesAll, ranges, ih]
  match l with
  | [] => simp [litHir, ranges]
  | [c] => simp [litHir, ranges]
  | c :: d :: l => simpa [litHir, ranges] using all (c :: d :: l)

theorem nonVoid_litHir (l : Str) : NonVoid (litHir l) := by
  match l with
  | [] => exact .empty
  | [c] => exact .lit c
  | c :: d :: l =>
    refine .concat fun h hm => ?_
    obtain ⟨c, _, rfl⟩ := List.mem_map.mp hm
    exact .lit c

theorem term_tokens {ps : List Ast.Prod} {g : Grammar} (he : Expressible ps) (hg : fromAst ps = .ok g) {s : Sym} (h : IsTerm s) :
    s ∈ g.tokens ↔ HasTerm ps s := by
  obtain ⟨start, hs⟩ := fromAst_ok hg
  obtain ⟨g', hg', _, _, hp, _⟩ := fromAst_spec hs
  rw [hg] at hg'; cases hg'
  rw [(gok_of_fromAst he hg).tokMem, hp]
  constructor
  · rintro (rfl | ⟨p, hm, h'⟩)
    · exact h.elim
    · rcases List.mem_cons.mp hm with rfl | hm
      · simp only [List.mem_cons, List.not_mem_nil, or_false] at h'
        subst h'; exact h.elim
      · simp only [List.mem_flatMap, List.mem_map] at hm
        obtain ⟨q, hq, b, hb, rfl⟩ := hm
        obtain ⟨s, hs, k⟩ := List.mem_map.mp h'
        exact ⟨h, q, hq, b, hb, s, hs, k⟩
  · rintro ⟨-, q, hq, b, hb, s, hs, k⟩
    refine .inr ⟨_, List.mem_cons_of_mem _ (List.mem_flatMap.mpr ⟨q, hq, List.mem_map.mpr ⟨b, hb, rfl⟩⟩), ?_⟩
    exact List.mem_map.mpr ⟨s, hs, k⟩

theorem ranges_iff {ps : List Ast.Prod} {g : Grammar} (he : Expressible ps) (hg : fromAst ps = .ok g) {rx : Str → Option Hir}
    {ds : List (TokenDef × Hir)} (hd : tokenDefs rx 0 g.tokens = .ok ds) (m : Match) :
    m ∈ rangesOf ds ↔ TermRange rx ps m := by
  have key := tokenDefs_mem hd
  have : m ∈ rangesOf ds ↔ ∃ h, (∃ d ∈ ds, d.2 = h) ∧ m ∈ ranges h := by
    simp [rangesOf]
  rw [this]
  constructor
  · rintro ⟨h, h1, h2⟩
    rcases (key h).mp h1 with ⟨l, k1, rfl⟩ | ⟨r, k1, k2⟩
    · exact .inl ⟨l, (term_tokens he hg (by trivial)).mp k1, (ranges_litHir l m).mp h2⟩
    · exact .inr ⟨r, h, (regex_tokens he hg r).mp k1, k2, h2⟩
  · rintro (⟨l, k1, k2⟩ | ⟨r, h, k1, k2, k3⟩)
    · exact ⟨litHir l, (key _).mpr (.inl ⟨l, (term_tokens he hg (by trivial)).mpr k1, rfl⟩), (ranges_litHir l m).mpr k2⟩
    · exact ⟨h, (key _).mpr (.inr ⟨r, (regex_tokens he hg r).mpr k1, k2⟩), k3⟩

theorem next_litHir (l : Str) (w : List Char) (m : Match) :
    Next (litHir l) w m ↔ ∃ c v, l = w ++ c :: v ∧ m = ⟨c.toNat, c.toNat + 1⟩ := by
  have all : ∀ (l : Str) (w : List Char), Next (.concat (l.map fun c => .lit c.toNat)) w m ↔
      ∃ c v, l = w ++ c :: v ∧ m = ⟨c.toNat, c.toNat + 1⟩ := by
    intro l
    induction l with
    | nil =>
      intro w
      constructor
      · intro h; cases h
      · rintro ⟨c, v, h, -⟩; simp at h
    | cons c l ih =>
      intro w
      constructor
      · intro h
        cases h with
        | concatHead h => cases h; exact ⟨c, l, rfl, rfl⟩
        | concatTail hm hn =>
          cases hm with
          | @lit d _ hd =>
            obtain rfl : d = c := by
              apply Char.ext; apply UInt32.toNat_inj.mp; exact hd
            obtain ⟨c', v, rfl, rfl⟩ := (ih _).mp hn
            exact ⟨c', v, rfl, rfl⟩
      · rintro ⟨c', v, h, rfl⟩
        cases w with
        | nil =>
          simp only [List.nil_append, List.cons.injEq] at h
          obtain ⟨rfl, rfl⟩ := h
          exact .concatHead .lit
        | cons d w =>
          simp only [List.cons_append, List.cons.injEq] at h
          obtain ⟨rfl, rfl⟩ := h
          exact .concatTail (u := [c]) (.lit rfl) ((ih w).mpr ⟨c', v, rfl, rfl⟩)
  match l with
  | [] =>
    constructor
    · intro h; cases h
    · rintro ⟨c, v, h, -⟩; simp at h
  | [c] =>
    constructor
    · intro h; cases h; exact ⟨c, [], rfl, rfl⟩
    · rintro ⟨c', v, h, rfl⟩
      cases w with
      | nil => simp at h; obtain ⟨rfl, rfl⟩ := h; exact .lit
      | cons d w => simp at h
  | c :: d :: l => exact all (c :: d :: l) w

theorem after_iff {ps : List Ast.Prod} {g : Grammar} (he : Expressible ps) (hg : fromAst ps = .ok g) {rx : Str → Option Hir}
    {ds : List (TokenDef × Hir)} (hd : tokenDefs rx 0 g.tokens = .ok ds) (w : List Char) (m : Match) :
    After (ds.map Prod.snd) w m ↔ TermAfter rx ps w m := by
  have key := tokenDefs_mem hd
  have : After (ds.map Prod.snd) w m ↔ ∃ h, (∃ d ∈ ds, d.2 = h) ∧ Next h w m := by
    simp only [After, List.mem_map]
  rw [this]
  constructor
  · rintro ⟨h, h1, h2⟩
    rcases (key h).mp h1 with ⟨l, k1, rfl⟩ | ⟨r, k1, k2⟩
    · obtain ⟨c, v, rfl, rfl⟩ := (next_litHir l w m).mp h2
      exact .inl ⟨c, v, (term_tokens he hg (by trivial)).mp k1, rfl⟩
    · exact .inr ⟨r, h, (regex_tokens he hg r).mp k1, k2, h2⟩
  · rintro (⟨c, v, k1, k2⟩ | ⟨r, h, k1, k2, k3⟩)
    · exact ⟨litHir (w ++ c :: v), (key _).mpr (.inl ⟨_, (term_tokens he hg (by trivial)).mpr k1, rfl⟩),
        (next_litHir _ w m).mpr ⟨c, v, rfl, k2⟩⟩
    · exact ⟨h, (key _).mpr (.inr ⟨r, (regex_tokens he hg r).mpr k1, k2⟩), k3⟩

theorem body_length {ps : List Ast.Prod} {g : Grammar} (hg : fromAst ps = .ok g) {max : Nat} (h1 : 1 ≤ max)
    (h : ∀ p ∈ ps, ∀ b ∈ p.bodies, b.inputs.length ≤ max) : ∀ p ∈ g.prods, p.inputs.length ≤ max := by
  obtain ⟨start, hs⟩ := fromAst_ok hg
  obtain ⟨g', hg', _, _, hp, _⟩ := fromAst_spec hs
  rw [hg] at hg'; cases hg'
  intro p hm
  rw [hp] at hm
  rcases List.mem_cons.mp hm with rfl | hm
  · simpa using h1
  · simp only [List.mem_flatMap, List.mem_map] at hm
    obtain ⟨q, hq, b, hb, rfl⟩ := hm
    simpa [fromAstBody] using h q hq b hb

end Grammar
end Verif
