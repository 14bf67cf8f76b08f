import Verif.Spec.Pieces
import Verif.Proofs.NfaPath

/-! Paths over words of pieces: as NfaPath. -/

namespace Verif.Spec

/-- `PPath` with a step count. -/
inductive PPathN (es : List NEdge) : Nat → Nat → List Match → Nat → Prop
  | nil (s) : PPathN es 0 s [] s
  | eps {e : NEdge} {k s w t} : e ∈ es → e.src = s → e.label = none → PPathN es k e.dst w t →
      PPathN es (k + 1) s w t
  | chr {e : NEdge} {k s m c w t} : e ∈ es → e.src = s → e.label = some m →
      m.lo ≤ c.lo → c.hi ≤ m.hi → PPathN es k e.dst w t → PPathN es (k + 1) s (c :: w) t

theorem ppath_iff_ppathN {es s w t} : PPath es s w t ↔ ∃ k, PPathN es k s w t := by
  constructor
  · intro h
    induction h with
    | nil s => exact ⟨0, .nil s⟩
    | eps a b c _ ih => obtain ⟨k, ih⟩ := ih; exact ⟨k + 1, .eps a b c ih⟩
    | chr a b c d e _ ih => obtain ⟨k, ih⟩ := ih; exact ⟨k + 1, .chr a b c d e ih⟩
  · rintro ⟨k, h⟩
    induction h with
    | nil s => exact .nil s
    | eps a b c _ ih => exact .eps a b c ih
    | chr a b c d e _ ih => exact .chr a b c d e ih

theorem PPath.mono {es es' : List NEdge} (h : ∀ e ∈ es, e ∈ es') {s w t} (p : PPath es s w t) :
    PPath es' s w t := by
  induction p with
  | nil s => exact .nil s
  | eps a b c _ ih => exact .eps (h _ a) b c ih
  | chr a b c d e _ ih => exact .chr (h _ a) b c d e ih

theorem PPath.trans {es : List NEdge} {s w t v u} (p : PPath es s w t) (q : PPath es t v u) :
    PPath es s (w ++ v) u := by
  induction p with
  | nil s => exact q
  | eps a b c _ ih => exact .eps a b c (ih q)
  | chr a b c d e _ ih => exact .chr a b c d e (ih q)

theorem EpsReach.toPPath {es : List NEdge} {s t} (p : EpsReach es s t) : PPath es s [] t := by
  induction p with
  | refl s => exact .nil s
  | step a b c _ ih => exact .eps a b c ih

theorem PPath.toEps {es : List NEdge} {s t w} (p : PPath es s w t) (hw : w = []) : EpsReach es s t := by
  induction p with
  | nil s => exact .refl s
  | eps a b c _ ih => exact .step a b c (ih hw)
  | chr => cases hw

/-- Paths that stay where only `es'` has edges. -/
theorem PPath.restrict {es es' : List NEdge} {P : Nat → Prop}
    (h : ∀ e ∈ es, P e.src → e ∈ es' ∧ P e.dst) {s w t} (hs : P s) (p : PPath es s w t) :
    PPath es' s w t := by
  induction p with
  | nil s => exact .nil s
  | eps a b c _ ih =>
    obtain ⟨h1, h2⟩ := h _ a (b ▸ hs)
    exact .eps h1 b c (ih h2)
  | chr a b c d e _ ih =>
    obtain ⟨h1, h2⟩ := h _ a (b ▸ hs)
    exact .chr h1 b c d e (ih h2)

/-- A path leaving the region `Q` does so through `m`. -/
theorem PPathN.split {es es' : List NEdge} {Q : Nat → Prop} {m : Nat}
    (h : ∀ e ∈ es, Q e.src → e ∈ es' ∧ (e.dst = m ∨ Q e.dst)) {k s w t}
    (p : PPathN es k s w t) (hs : s = m ∨ Q s) (ht : ¬ Q t) :
    ∃ k' w₁ w₂, k' ≤ k ∧ w = w₁ ++ w₂ ∧ PPath es' s w₁ m ∧ PPathN es k' m w₂ t := by
  induction p with
  | nil s =>
    rcases hs with rfl | hs
    · exact ⟨0, [], [], Nat.le_refl _, rfl, .nil s, .nil s⟩
    · exact absurd hs ht
  | @eps e k s w t a b c p ih =>
    rcases hs with rfl | hs
    · exact ⟨k + 1, [], w, Nat.le_refl _, rfl, .nil s, .eps a b c p⟩
    · obtain ⟨h1, h2⟩ := h _ a (b ▸ hs)
      obtain ⟨k', w₁, w₂, hk, hw, p1, p2⟩ := ih h2 ht
      exact ⟨k', w₁, w₂, by omega, hw, .eps h1 b c p1, p2⟩
  | @chr e k s m' ch w t a b c d f p ih =>
    rcases hs with rfl | hs
    · exact ⟨k + 1, [], ch :: w, Nat.le_refl _, rfl, .nil s, .chr a b c d f p⟩
    · obtain ⟨h1, h2⟩ := h _ a (b ▸ hs)
      obtain ⟨k', w₁, w₂, hk, hw, p1, p2⟩ := ih h2 ht
      exact ⟨k', ch :: w₁, w₂, by omega, by simp [hw], .chr h1 b c d f p1, p2⟩

theorem PPath.split {es es' : List NEdge} {Q : Nat → Prop} {m : Nat}
    (h : ∀ e ∈ es, Q e.src → e ∈ es' ∧ (e.dst = m ∨ Q e.dst)) {s w t}
    (p : PPath es s w t) (hs : s = m ∨ Q s) (ht : ¬ Q t) :
    ∃ w₁ w₂, w = w₁ ++ w₂ ∧ PPath es' s w₁ m ∧ PPath es m w₂ t := by
  obtain ⟨k, p⟩ := ppath_iff_ppathN.mp p
  obtain ⟨k', w₁, w₂, _, hw, p1, p2⟩ := p.split h hs ht
  exact ⟨w₁, w₂, hw, p1, ppath_iff_ppathN.mpr ⟨k', p2⟩⟩

/-- As `PPath.restrict`, with the place where the path ends. -/
theorem PPath.restrict_end {es es' : List NEdge} {P : Nat → Prop}
    (h : ∀ e ∈ es, P e.src → e ∈ es' ∧ P e.dst) {s w t} (hs : P s) (p : PPath es s w t) :
    PPath es' s w t ∧ P t := by
  induction p with
  | nil s => exact ⟨.nil s, hs⟩
  | eps a b c _ ih =>
    obtain ⟨h1, h2⟩ := h _ a (b ▸ hs)
    exact ⟨.eps h1 b c (ih h2).1, (ih h2).2⟩
  | chr a b c d e _ ih =>
    obtain ⟨h1, h2⟩ := h _ a (b ▸ hs)
    exact ⟨.chr h1 b c d e (ih h2).1, (ih h2).2⟩

/-- A path from the region `Q` stays there or leaves through `m`. -/
theorem PPathN.split_end {es es' : List NEdge} {Q : Nat → Prop} {m : Nat}
    (h : ∀ e ∈ es, Q e.src → e ∈ es' ∧ (e.dst = m ∨ Q e.dst)) {k s w t}
    (p : PPathN es k s w t) (hs : s = m ∨ Q s) :
    (PPath es' s w t ∧ (t = m ∨ Q t)) ∨
    ∃ k' w₁ w₂, k' ≤ k ∧ w = w₁ ++ w₂ ∧ PPath es' s w₁ m ∧ PPathN es k' m w₂ t := by
  induction p with
  | nil s => exact .inl ⟨.nil s, hs⟩
  | @eps e k s w t a b c p ih =>
    rcases hs with rfl | hs
    · exact .inr ⟨k + 1, [], w, Nat.le_refl _, rfl, .nil s, .eps a b c p⟩
    · obtain ⟨h1, h2⟩ := h _ a (b ▸ hs)
      rcases ih h2 with ⟨p1, ht⟩ | ⟨k', w₁, w₂, hk, hw, p1, p2⟩
      · exact .inl ⟨.eps h1 b c p1, ht⟩
      · exact .inr ⟨k', w₁, w₂, by omega, hw, .eps h1 b c p1, p2⟩
  | @chr e k s m' ch w t a b c d f p ih =>
    rcases hs with rfl | hs
    · exact .inr ⟨k + 1, [], ch :: w, Nat.le_refl _, rfl, .nil s, .chr a b c d f p⟩
    · obtain ⟨h1, h2⟩ := h _ a (b ▸ hs)
      rcases ih h2 with ⟨p1, ht⟩ | ⟨k', w₁, w₂, hk, hw, p1, p2⟩
      · exact .inl ⟨.chr h1 b c d f p1, ht⟩
      · exact .inr ⟨k', ch :: w₁, w₂, by omega, by simp [hw], .chr h1 b c d f p1, p2⟩

theorem PPath.split_end {es es' : List NEdge} {Q : Nat → Prop} {m : Nat}
    (h : ∀ e ∈ es, Q e.src → e ∈ es' ∧ (e.dst = m ∨ Q e.dst)) {s w t}
    (p : PPath es s w t) (hs : s = m ∨ Q s) :
    (PPath es' s w t ∧ (t = m ∨ Q t)) ∨ ∃ w₁ w₂, w = w₁ ++ w₂ ∧ PPath es' s w₁ m ∧ PPath es m w₂ t := by
  obtain ⟨k, p⟩ := ppath_iff_ppathN.mp p
  rcases p.split_end h hs with h | ⟨k', w₁, w₂, _, hw, p1, p2⟩
  · exact .inl h
  · exact .inr ⟨w₁, w₂, hw, p1, ppath_iff_ppathN.mpr ⟨k', p2⟩⟩

/-- A state without outgoing edges is a dead end. -/
theorem PPath.stuck {es : List NEdge} {s w t} (p : PPath es s w t) (h : ∀ e ∈ es, e.src ≠ s) :
    w = [] ∧ t = s := by
  cases p with
  | nil => exact ⟨rfl, rfl⟩
  | eps a b _ _ => exact absurd b (h _ a)
  | chr a b _ _ _ _ => exact absurd b (h _ a)

/-- Splitting a path at a position of the word. -/
theorem PPath.splitWord {es : List NEdge} {s t} : ∀ {w v}, PPath es s (w ++ v) t →
    ∃ u, PPath es s w u ∧ PPath es u v t := by
  intro w v p
  generalize hx : w ++ v = x at p
  induction p generalizing w with
  | nil s =>
    have : w = [] ∧ v = [] := by simpa using hx
    obtain ⟨rfl, rfl⟩ := this
    exact ⟨s, .nil s, .nil s⟩
  | eps a b c p ih =>
    obtain ⟨u, p1, p2⟩ := ih hx
    exact ⟨u, .eps a b c p1, p2⟩
  | @chr e s m ch w' t a b c d f p ih =>
    cases w with
    | nil =>
      simp only [List.nil_append] at hx
      subst hx
      exact ⟨s, .nil s, .chr a b c d f p⟩
    | cons x w =>
      simp only [List.cons_append, List.cons.injEq] at hx
      obtain ⟨rfl, hx⟩ := hx
      obtain ⟨u, p1, p2⟩ := ih hx
      exact ⟨u, .chr a b c d f p1, p2⟩

end Verif.Spec
