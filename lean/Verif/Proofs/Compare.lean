import Verif.Model.Compare
import Verif.Spec.Order
import Verif.Proofs.Order

/-! Lemmas about the comparisons of `Model/Compare.lean`. -/

namespace Verif
open Spec

theorem strCmp_eq {s t : Str} : strCmp s t = .eq ↔ s = t := by
  constructor
  · intro h
    refine LawfulBOrd.tri s t ?_ ?_ <;> · unfold strCmp at h; grind
  · rintro rfl
    simp [strCmp, LawfulBOrd.irrefl]

theorem strCmp_lt {s t : Str} : strCmp s t = .lt ↔ blt s t = true := by
  unfold strCmp; grind

theorem strCmp_swap (s t : Str) : strCmp t s = (strCmp s t).swap := by
  have h1 : blt s t = true → blt t s = true → False := fun h h' => by
    have := LawfulBOrd.trans s t s h h'
    rw [LawfulBOrd.irrefl] at this; cases this
  unfold strCmp
  cases h : blt s t <;> cases h' : blt t s <;> simp_all

theorem strCmp_trans {s t u : Str} (h : strCmp s t = .lt) (h' : strCmp t u = .lt) : strCmp s u = .lt := by
  rw [strCmp_lt] at *
  exact LawfulBOrd.trans s t u h h'

/-- A comparison with these three properties is a total order. -/
theorem totalOn_of {α : Type} {P : α → Prop} {same : α → α → Prop} {cmp : α → α → Ordering}
    (eq : ∀ a b, P a → P b → (cmp a b = .eq ↔ same a b)) (swap : ∀ a b, P a → P b → cmp b a = (cmp a b).swap)
    (left : ∀ a b c, P a → P b → P c → same a b → cmp a c = cmp b c)
    (lt : ∀ a b c, P a → P b → P c → cmp a b = .lt → cmp b c = .lt → cmp a c = .lt) : TotalOn P same cmp := by
  refine ⟨eq, swap, fun a b c ha hb hc h1 h2 => ?_⟩
  rcases h : cmp a b with _ | _ | _
  · rcases h' : cmp b c with _ | _ | _
    · rw [lt a b c ha hb hc h h']; decide
    · have hcb : same c b := (eq c b hc hb).mp (by rw [swap b c hb hc, h']; rfl)
      have := left c b a hc hb ha hcb
      rw [swap c a hc ha, this, swap a b ha hb, h]; decide
    · exact absurd h' h2
  · rw [left a b c ha hb hc ((eq a b ha hb).mp h)]; exact h2
  · exact absurd h h1

theorem symCompare_total : TotalOn (· ≠ Sym.epsilon) Eq Sym.compare := by
  refine totalOn_of ?_ ?_ ?_ ?_
  · rintro (s | s | s | _ | _) (t | t | t | _ | _) ha hb <;>
      first | exact absurd rfl ha | exact absurd rfl hb | simp [Sym.compare, strCmp_eq, Sym.precedence]
  · rintro (s | s | s | _ | _) (t | t | t | _ | _) ha hb <;>
      first | exact absurd rfl ha | exact absurd rfl hb | exact strCmp_swap _ _ | rfl
  · rintro a b c - - - rfl; rfl
  · rintro (s | s | s | _ | _) (t | t | t | _ | _) (u | u | u | _ | _) ha hb hc h h' <;>
      first
      | exact absurd rfl ha
      | exact absurd rfl hb
      | exact absurd rfl hc
      | exact strCmp_trans h h'
      | cases h; done
      | cases h'; done
      | rfl

namespace Ast.InSym

theorem sameKind_of {a b : InSym} (h : compare a b = .eq) (ha : Sortable a) (hb : Sortable b) : SameKind a b := by
  induction ha generalizing b with
  | strLit => cases hb <;> first | (cases strCmp_eq.mp h; exact .refl) | cases h
  | nonTerm => cases hb <;> first | exact .nonTerm | cases h
  | regex => cases hb <;> first | (cases strCmp_eq.mp h; exact .refl) | cases h
  | eof => cases hb <;> first | exact .refl | cases h
  | @named n ty _ ih =>
    cases hb with
    | @named m ty' hb =>
      simp only [compare] at h
      split at h
      · rename_i h'
        cases strCmp_eq.mp h
        exact .named (ih h' hb)
      · rename_i h'; exact absurd h h'
    | _ => cases h

theorem compare_self {a : InSym} (ha : Sortable a) : compare a a = .eq := by
  induction ha with
  | strLit => exact strCmp_eq.mpr rfl
  | nonTerm => rfl
  | regex => exact strCmp_eq.mpr rfl
  | eof => rfl
  | named _ ih => simp only [compare, ih]; exact strCmp_eq.mpr rfl

theorem sortable_same {a b : InSym} (h : SameKind a b) (ha : Sortable a) : Sortable b := by
  induction h with
  | refl => exact ha
  | nonTerm => exact .nonTerm
  | named _ ih => cases ha with | named ha => exact .named (ih ha)

theorem compare_left {a b : InSym} (h : SameKind a b) : ∀ c, compare a c = compare b c := by
  induction h with
  | refl => intro c; rfl
  | nonTerm => intro c; cases c <;> rfl
  | named _ ih =>
    intro c
    cases c with
    | named m c => simp only [compare, ih c]
    | _ => rfl

theorem compare_swap {a b : InSym} (ha : Sortable a) (hb : Sortable b) : compare b a = (compare a b).swap := by
  induction ha generalizing b with
  | strLit => cases hb <;> first | exact strCmp_swap _ _ | rfl
  | nonTerm => cases hb <;> rfl
  | regex => cases hb <;> first | exact strCmp_swap _ _ | rfl
  | eof => cases hb <;> rfl
  | @named n ty _ ih =>
    cases hb with
    | @named m ty' hb =>
      simp only [compare, ih hb]
      cases compare ty ty' with
      | eq => exact strCmp_swap _ _
      | _ => rfl
    | _ => rfl

theorem compare_lt {a b c : InSym} (ha : Sortable a) (hb : Sortable b) (hc : Sortable c) (h : compare a b = .lt)
    (h' : compare b c = .lt) : compare a c = .lt := by
  induction ha generalizing b c with
  | strLit =>
    cases hb <;> cases hc <;> first | exact strCmp_trans h h' | (cases h; done) | (cases h'; done) | rfl
  | nonTerm => cases hb <;> cases hc <;> first | (cases h; done) | (cases h'; done) | rfl
  | regex =>
    cases hb <;> cases hc <;> first | exact strCmp_trans h h' | (cases h; done) | (cases h'; done) | rfl
  | eof => cases hb <;> cases hc <;> first | (cases h; done) | (cases h'; done) | rfl
  | @named n ty hty ih =>
    cases hb with
    | @named m ty1 hb =>
      cases hc with
      | @named k ty2 hc =>
        simp only [compare] at h h' ⊢
        rcases h1 : compare ty ty1 with _ | _ | _
        · rcases h2 : compare ty1 ty2 with _ | _ | _
          · rw [ih hb hc h1 h2]
          · have := compare_left (sameKind_of (b := ty1) (a := ty2) (by rw [compare_swap hb hc, h2]; rfl) hc hb) ty
            rw [compare_swap hc hty, this, compare_swap hty hb, h1]; rfl
          · rw [h2] at h'; cases h'
        · rw [h1] at h
          rw [compare_left (sameKind_of h1 hty hb) ty2]
          rcases h2 : compare ty1 ty2 with _ | _ | _
          · rfl
          · rw [h2] at h'; exact strCmp_trans h h'
          · rw [h2] at h'; cases h'
        · rw [h1] at h; cases h
      | _ => first | rfl | cases h'
    | _ => cases hc <;> first | (cases h; done) | (cases h'; done) | rfl

theorem compare_total : TotalOn Sortable SameKind compare :=
  totalOn_of (fun _ _ ha hb => ⟨fun h => sameKind_of h ha hb, fun h => (compare_left h _).trans (compare_self hb)⟩)
    (fun _ _ ha hb => compare_swap ha hb) (fun _ _ c _ _ _ h => compare_left h c)
    (fun _ _ _ ha hb hc h h' => compare_lt ha hb hc h h')

theorem same_notGt {a b : InSym} (h : SameKind a b) : compare a b ≠ .gt ∧ compare b a ≠ .gt := by
  have self : ∀ s : InSym, compare s s ≠ .gt := fun s => by
    induction s with
    | named n ty ih =>
      simp only [compare]
      rcases h : compare ty ty with _ | _ | _
      · simp
      · cases n with
        | none => simp
        | some n => simp [strCmp_eq.mpr]
      · exact absurd h ih
    | strLit s => simp [compare, strCmp_eq.mpr]
    | regex s => simp [compare, strCmp_eq.mpr]
    | nonTerm => exact fun h => nomatch h
    | eof => exact fun h => nomatch h
    | epsilon => exact fun h => nomatch h
  exact ⟨by rw [compare_left h]; exact self _, by rw [← compare_left h]; exact self _⟩

theorem compare_exact : ∀ a b : InSym, ¬ Tied a b →
    compare b a = (compare a b).swap ∧ (compare a b = .eq ↔ SameKind a b) := by
  intro a
  induction a with
  | named m s ih =>
    intro b hb
    cases b with
    | named n t =>
      have hst : ¬ Tied s t := fun h => hb (.named h)
      obtain ⟨h1, h2⟩ := ih t hst
      simp only [compare, h1]
      rcases h : compare s t with _ | _ | _
      · refine ⟨rfl, ⟨by simp, fun hs => ?_⟩⟩
        cases hs with
        | refl => rw [h] at h1; cases h1
        | named hs => rw [h2.mpr hs] at h; cases h
      · have hs := h2.mp h
        cases m <;> cases n
        · exact absurd (.nameless hs) hb
        · exact ⟨rfl, ⟨by simp, fun h => by cases h⟩⟩
        · exact ⟨rfl, ⟨by simp, fun h => by cases h⟩⟩
        · exact ⟨strCmp_swap _ _, ⟨fun h => strCmp_eq.mp h ▸ .named hs, fun h => by
            cases h <;> exact strCmp_eq.mpr rfl⟩⟩
      · refine ⟨rfl, ⟨by simp, fun hs => ?_⟩⟩
        cases hs with
        | refl => rw [h] at h1; cases h1
        | named hs => rw [h2.mpr hs] at h; cases h
    | _ => exact ⟨rfl, ⟨(fun h => nomatch h), (fun h => nomatch h)⟩⟩
  | _ =>
    intro b hb
    cases b <;> first
      | exact absurd Tied.epsilon hb
      | exact ⟨strCmp_swap _ _, ⟨fun h => strCmp_eq.mp h ▸ .refl, fun h => by cases h; exact strCmp_eq.mpr rfl⟩⟩
      | exact ⟨rfl, ⟨fun _ => .nonTerm, fun _ => rfl⟩⟩
      | exact ⟨rfl, ⟨fun _ => .refl, fun _ => rfl⟩⟩
      | exact ⟨rfl, ⟨(fun h => nomatch h), (fun h => nomatch h)⟩⟩

theorem tied_lt {a b : InSym} (h : Tied a b) : compare a b = .lt ∧ compare b a = .lt := by
  induction h with
  | epsilon => exact ⟨rfl, rfl⟩
  | @nameless s t h =>
    have : ∀ x y : InSym, compare x y ≠ .gt → compare (.named none x) (.named none y) = .lt := fun x y h => by
      simp only [compare]; split
      · rfl
      · rename_i o h' ; cases ho : compare x y <;> simp_all
    exact ⟨this _ _ (same_notGt h).1, this _ _ (same_notGt h).2⟩
  | named _ ih => simp only [compare, ih.1, ih.2, and_self]

end Ast.InSym
end Verif
