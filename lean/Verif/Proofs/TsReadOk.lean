import Verif.Spec.TsProject

/-! # Reading type expressions: what follows does not matter -/

namespace Verif.Spec.TsSyntax
open Verif MiniTs

/-- Words that cannot continue a type expression. -/
def stops : List Word → Bool
  | .punct c :: _ => decide (c ≠ '|' ∧ c ≠ '[' ∧ c ≠ '<')
  | .id w :: _ => decide (w ≠ "extends".toList)
  | _ => true

/-- More fuel and more words change nothing. -/
def Extends {α : Type} (f g : List Word → Option (α × List Word)) : Prop :=
  ∀ ws x r s, stops s = true → f ws = some (x, r) → g (ws ++ s) = some (x, r ++ s)

/-- All functions of the reader with fuel `n` extend to fuel `m`. -/
structure Ext (n m : Nat) : Prop where
  type : Extends (type n) (type m)
  union : Extends (unionType n) (unionType m)
  rest : Extends (unionRest n) (unionRest m)
  pre : Extends (prefixType n) (prefixType m)
  idx : ∀ t, Extends (indices n t) (indices m t)
  prim : Extends (primary n) (primary m)
  parts : Extends (parts n) (parts m)
  elems : Extends (elems n) (elems m)
  mems : Extends (members n) (members m)
  args : Extends (args n) (args m)

theorem stops_punct {c : Char} {s : List Word} (h : stops (.punct c :: s) = true) : c ≠ '|' ∧ c ≠ '[' ∧ c ≠ '<' := by
  simpa [stops] using h

theorem stops_id {w : Str} {s : List Word} (h : stops (.id w :: s) = true) : w ≠ "extends".toList := by
  simpa [stops] using h

theorem primary_nil (n : Nat) : primary n [] = none := by
  cases n <;> simp only [primary]

theorem prefix_nil (n : Nat) : prefixType n [] = none := by
  cases n with
  | zero => simp only [prefixType]
  | succ n => simp only [prefixType, primary_nil, bind, Option.bind]

theorem union_nil (n : Nat) : unionType n [] = none := by
  cases n with
  | zero => simp only [unionType]
  | succ n => simp only [unionType, prefix_nil, bind, Option.bind]

theorem type_nil (n : Nat) : TsSyntax.type n [] = none := by
  cases n with
  | zero => simp only [TsSyntax.type]
  | succ n => simp only [TsSyntax.type, union_nil, bind, Option.bind]

theorem primary_dot (n : Nat) (ws : List Word) : primary n (.punct '.' :: ws) = none := by
  cases n <;> simp [primary]

theorem prefix_dot (n : Nat) (ws : List Word) : prefixType n (.punct '.' :: ws) = none := by
  cases n with
  | zero => simp only [prefixType]
  | succ n => simp only [prefixType, primary_dot, bind, Option.bind]

theorem union_dot (n : Nat) (ws : List Word) : unionType n (.punct '.' :: ws) = none := by
  cases n with
  | zero => simp only [unionType]
  | succ n =>
    unfold unionType
    simp [prefix_dot]

theorem type_dot (n : Nat) (ws : List Word) : TsSyntax.type n (.punct '.' :: ws) = none := by
  cases n with
  | zero => simp only [TsSyntax.type]
  | succ n => simp only [TsSyntax.type, union_dot, bind, Option.bind]

theorem elems_nil (n : Nat) : TsSyntax.elems n [] = none := by
  cases n with
  | zero => simp only [TsSyntax.elems]
  | succ n => simp only [TsSyntax.elems, type_nil, bind, Option.bind]

theorem indices_nil {n : Nat} {t x : Exp} {r : List Word} (h : indices n t [] = some (x, r)) : r = [] := by
  cases n with
  | zero => simp [indices] at h
  | succ n => simp only [indices, Option.some.injEq, Prod.mk.injEq] at h; exact h.2.symm

theorem primary_id {n : Nat} {w : Str} {x : Exp} {r : List Word} (h : primary n [.id w] = some (x, r)) : r = [] := by
  cases n with
  | zero => simp [primary] at h
  | succ n => simp only [primary, Option.some.injEq, Prod.mk.injEq] at h; exact h.2.symm

theorem prefix_id {n : Nat} {w : Str} {x : Exp} {r : List Word} (h : prefixType n [.id w] = some (x, r)) : r = [] := by
  cases n with
  | zero => simp only [prefixType] at h; cases h
  | succ n =>
    simp only [prefixType] at h
    split at h
    · rw [prefix_nil] at h; cases h
    · split at h
      · cases h
      · simp only [bind, Option.bind] at h
        cases hp : primary n [.id w] with
        | none => rw [hp] at h; cases h
        | some q =>
          rw [hp] at h
          obtain ⟨t, ws⟩ := q
          have := primary_id hp
          subst this
          exact indices_nil h

theorem rest_nil {n : Nat} {x : Exps} {r : List Word} (h : unionRest n [] = some (x, r)) : r = [] := by
  cases n with
  | zero => simp [unionRest] at h
  | succ n => simp only [unionRest, Option.some.injEq, Prod.mk.injEq] at h; exact h.2.symm

theorem union_id {n : Nat} {w : Str} {x : Exp} {r : List Word} (h : unionType n [.id w] = some (x, r)) : r = [] := by
  cases n with
  | zero => simp only [unionType] at h; cases h
  | succ n =>
    simp only [unionType, bind, Option.bind] at h
    cases hp : prefixType n [.id w] with
    | none => rw [hp] at h; cases h
    | some q =>
      rw [hp] at h
      obtain ⟨t, ws⟩ := q
      have := prefix_id hp
      subst this
      simp only at h
      cases hr : unionRest n [] with
      | none => rw [hr] at h; cases h
      | some q =>
        rw [hr] at h
        obtain ⟨ts, ws⟩ := q
        have := rest_nil hr
        subst this
        cases ts <;> simp only [pure, Option.some.injEq, Prod.mk.injEq] at h <;> exact h.2.symm

theorem type_id {n : Nat} {w : Str} {x : Exp} {r : List Word} (h : TsSyntax.type n [.id w] = some (x, r)) : r = [] := by
  cases n with
  | zero => simp only [TsSyntax.type] at h; cases h
  | succ n =>
    simp only [TsSyntax.type, bind, Option.bind] at h
    cases hp : unionType n [.id w] with
    | none => rw [hp] at h; cases h
    | some q =>
      rw [hp] at h
      obtain ⟨t, ws⟩ := q
      have := union_id hp
      subst this
      simp only [pure, Option.some.injEq, Prod.mk.injEq] at h
      exact h.2.symm

section
variable {n m : Nat} (ih : Ext n m)
include ih

theorem ext_type : Extends (TsSyntax.type (n + 1)) (TsSyntax.type (m + 1)) := by
  intro ws x r s hs h
  simp only [TsSyntax.type, bind, Option.bind] at h ⊢
  cases hu : unionType n ws with
  | none => simp [hu] at h
  | some q =>
    obtain ⟨c, ws1⟩ := q
    rw [ih.union _ _ _ _ hs hu]
    simp only [hu] at h
    simp only
    cases ws1 with
    | nil =>
      simp only [Option.some.injEq, Prod.mk.injEq, pure] at h
      obtain ⟨rfl, rfl⟩ := h
      cases s with
      | nil => rfl
      | cons a s =>
        cases a with
        | id w =>
          have := stops_id hs
          simp only [List.nil_append, if_neg this, pure]
        | _ => simp only [List.nil_append, pure]
    | cons a ws1 =>
      cases a with
      | id w =>
        simp only [List.cons_append] at h ⊢
        by_cases hw : w = "extends".toList
        · simp only [hw, if_true] at h ⊢
          cases hu2 : unionType n ws1 with
          | none => simp [hu2] at h
          | some q =>
            obtain ⟨e, ws2⟩ := q
            rw [ih.union _ _ _ _ hs hu2]
            simp only [hu2] at h
            simp only
            split at h
            · rename_i ws3
              simp only [List.cons_append]
              cases ht : TsSyntax.type n ws3 with
              | none => simp [ht] at h
              | some q =>
                obtain ⟨t, ws4⟩ := q
                rw [ih.type _ _ _ _ hs ht]
                simp only [ht] at h
                simp only
                split at h
                · rename_i ws5
                  simp only [List.cons_append]
                  cases hf : TsSyntax.type n ws5 with
                  | none => simp [hf] at h
                  | some q =>
                    obtain ⟨f, ws6⟩ := q
                    rw [ih.type _ _ _ _ hs hf]
                    simp only [hf, Option.some.injEq, Prod.mk.injEq, pure] at h
                    obtain ⟨rfl, rfl⟩ := h
                    rfl
                · simp at h
            · simp at h
        · simp only [hw, if_false] at h ⊢
          simp only [Option.some.injEq, Prod.mk.injEq, pure] at h
          obtain ⟨rfl, rfl⟩ := h
          rfl
      | _ =>
        simp only [Option.some.injEq, Prod.mk.injEq, pure] at h
        obtain ⟨rfl, rfl⟩ := h
        rfl

theorem ext_rest : Extends (unionRest (n + 1)) (unionRest (m + 1)) := by
  intro ws x r s hs h
  simp only [unionRest] at h ⊢
  split at h
  · rename_i ws1
    simp only [List.cons_append, bind, Option.bind] at h ⊢
    cases hp : prefixType n ws1 with
    | none => simp [hp] at h
    | some q =>
      obtain ⟨t, ws2⟩ := q
      rw [ih.pre _ _ _ _ hs hp]
      simp only [hp] at h
      simp only
      cases hr : unionRest n ws2 with
      | none => simp [hr] at h
      | some q =>
        obtain ⟨ts, ws3⟩ := q
        rw [ih.rest _ _ _ _ hs hr]
        simp only [hr, Option.some.injEq, Prod.mk.injEq, pure] at h
        obtain ⟨rfl, rfl⟩ := h
        rfl
  · rename_i hne
    simp only [Option.some.injEq, Prod.mk.injEq] at h
    obtain ⟨rfl, rfl⟩ := h
    split
    · rename_i ws1 he
      cases ws with
      | nil =>
        simp only [List.nil_append] at he
        subst he
        simpa using (stops_punct hs).1
      | cons a ws =>
        simp only [List.cons_append, List.cons.injEq] at he
        exact absurd (by rw [he.1]) (hne ws)
    · rfl

theorem ext_union : Extends (unionType (n + 1)) (unionType (m + 1)) := by
  have key : ∀ ws x r s, stops s = true →
      ((prefixType n ws).bind fun q => (unionRest n q.2).bind fun q' =>
        match q'.1 with
        | .nil => some (q.1, q'.2)
        | ts => some (.union (.cons .elem q.1 ts), q'.2)) = some (x, r) →
      ((prefixType m (ws ++ s)).bind fun q => (unionRest m q.2).bind fun q' =>
        match q'.1 with
        | .nil => some (q.1, q'.2)
        | ts => some (.union (.cons .elem q.1 ts), q'.2)) = some (x, r ++ s) := by
    intro ws x r s hs h
    cases hp : prefixType n ws with
    | none => simp [hp] at h
    | some q =>
      obtain ⟨t, ws1⟩ := q
      rw [ih.pre _ _ _ _ hs hp]
      simp only [hp, Option.bind] at h ⊢
      cases hr : unionRest n ws1 with
      | none => simp [hr] at h
      | some q =>
        obtain ⟨ts, ws2⟩ := q
        rw [ih.rest _ _ _ _ hs hr]
        simp only [hr] at h ⊢
        cases ts with
        | nil =>
          simp only [Option.some.injEq, Prod.mk.injEq] at h ⊢
          obtain ⟨rfl, rfl⟩ := h
          exact ⟨rfl, rfl⟩
        | cons a e ts =>
          simp only [Option.some.injEq, Prod.mk.injEq] at h ⊢
          obtain ⟨rfl, rfl⟩ := h
          exact ⟨rfl, rfl⟩
  have form : ∀ k ws, unionType (k + 1) ws = ((prefixType k (match ws with | .punct '|' :: ws => ws | ws => ws)).bind fun q =>
      (unionRest k q.2).bind fun q' =>
        match q'.1 with
        | .nil => some (q.1, q'.2)
        | ts => some (.union (.cons .elem q.1 ts), q'.2)) := by
    intro k ws
    unfold unionType
    rfl
  intro ws x r s hs h
  rw [form] at h ⊢
  split at h
  · rename_i ws1
    exact key _ _ _ _ hs h
  · rename_i hne
    have : (match ws ++ s with | .punct '|' :: ws => ws | ws => ws) = ws ++ s := by
      split
      · rename_i ws1 he
        cases ws with
        | nil =>
          simp only [List.nil_append] at he
          subst he
          simpa using (stops_punct hs).1
        | cons a ws =>
          simp only [List.cons_append, List.cons.injEq] at he
          exact absurd (by rw [he.1]) (hne ws)
      · rfl
    rw [this]
    exact key _ _ _ _ hs h

theorem ext_idx (t : Exp) : Extends (indices (n + 1) t) (indices (m + 1) t) := by
  intro ws x r s hs h
  simp only [indices] at h ⊢
  split at h
  · rename_i ws1
    simp only [List.cons_append]
    exact ih.idx _ _ _ _ _ hs h
  · rename_i ws1 hne
    have h1 : ∀ ws2, ws1 ≠ .punct ']' :: ws2 := fun ws2 he => hne ws2 he
    simp only [bind, Option.bind] at h
    cases ht : TsSyntax.type n ws1 with
    | none => simp [ht] at h
    | some q =>
      obtain ⟨k, ws2⟩ := q
      have hw : ws1 ≠ [] := by
        rintro rfl
        rw [type_nil] at ht
        cases ht
      obtain ⟨a, ws1', rfl⟩ := List.exists_cons_of_ne_nil hw
      have ht' := ih.type _ _ _ _ hs ht
      simp only [ht] at h
      simp only [List.cons_append] at ht' ⊢
      split
      · rename_i he
        simp only [List.cons.injEq, true_and] at he
        exact absurd (by rw [he.1]) (h1 ws1')
      · rename_i ws3 _ he
        simp only [List.cons.injEq, true_and] at he
        subst he
        simp only [bind, Option.bind, ht']
        split at h
        · simp only [List.cons_append]
          exact ih.idx _ _ _ _ _ hs h
        · simp at h
      · rename_i hx
        exact absurd rfl (hx _)
  · rename_i h1 h2
    simp only [Option.some.injEq, Prod.mk.injEq] at h
    obtain ⟨rfl, rfl⟩ := h
    have hno : ∀ l, ws ++ s ≠ .punct '[' :: l := by
      intro l he
      cases ws with
      | nil =>
        simp only [List.nil_append] at he
        subst he
        simpa using (stops_punct hs).2.1
      | cons a ws =>
        simp only [List.cons_append, List.cons.injEq] at he
        exact h2 ws (by rw [he.1])
    split
    · rename_i he; exact absurd he (hno _)
    · rename_i he; exact absurd he (hno _)
    · rfl

theorem ext_pre : Extends (prefixType (n + 1)) (prefixType (m + 1)) := by
  intro ws x r s hs h
  have key : ∀ ws, (primary n ws).bind (fun q => indices n q.1 q.2) = some (x, r) →
      (primary m (ws ++ s)).bind (fun q => indices m q.1 q.2) = some (x, r ++ s) := by
    intro ws h
    cases hp : primary n ws with
    | none => simp [hp] at h
    | some q =>
      obtain ⟨t, ws1⟩ := q
      rw [ih.prim _ _ _ _ hs hp]
      simp only [hp, Option.bind] at h ⊢
      exact ih.idx _ _ _ _ _ hs h
  simp only [prefixType] at h ⊢
  cases ws with
  | nil =>
    simp only [bind, Option.bind] at h
    cases n with
    | zero => simp [primary] at h
    | succ n => simp [primary] at h
  | cons a ws =>
    cases a with
    | id w =>
      simp only [List.cons_append] at h ⊢
      by_cases hk : w = "keyof".toList
      · simp only [hk, if_true, bind, Option.bind] at h ⊢
        cases hp : prefixType n ws with
        | none => simp [hp] at h
        | some q =>
          obtain ⟨t, ws1⟩ := q
          rw [ih.pre _ _ _ _ hs hp]
          simp only [hp, Option.some.injEq, Prod.mk.injEq, pure] at h
          obtain ⟨rfl, rfl⟩ := h
          rfl
      · simp only [hk, if_false] at h ⊢
        by_cases hi : w = "infer".toList
        · simp only [hi, if_true] at h ⊢
          cases ws with
          | nil => simp at h
          | cons b ws =>
            cases b with
            | id y =>
              cases ws with
              | nil =>
                simp only [Option.some.injEq, Prod.mk.injEq] at h
                obtain ⟨rfl, rfl⟩ := h
                cases s with
                | nil => rfl
                | cons b s =>
                  cases b with
                  | id w' =>
                    have := stops_id hs
                    simp only [List.cons_append, List.nil_append, if_neg this]
                  | _ => rfl
              | cons b ws =>
                cases b with
                | id w' =>
                  simp only [List.cons_append] at h ⊢
                  by_cases he : w' = "extends".toList
                  · simp only [he, if_true, bind, Option.bind] at h ⊢
                    cases hu : unionType n ws with
                    | none => simp [hu] at h
                    | some q =>
                      obtain ⟨c, ws1⟩ := q
                      rw [ih.union _ _ _ _ hs hu]
                      simp only [hu, Option.some.injEq, Prod.mk.injEq, pure] at h
                      obtain ⟨rfl, rfl⟩ := h
                      rfl
                  · simp only [he, if_false, Option.some.injEq, Prod.mk.injEq] at h ⊢
                    obtain ⟨rfl, rfl⟩ := h
                    exact ⟨rfl, rfl⟩
                | _ =>
                  simp only [Option.some.injEq, Prod.mk.injEq] at h
                  obtain ⟨rfl, rfl⟩ := h
                  rfl
            | _ => simp at h
        · simp only [hi, if_false] at h ⊢
          exact key (.id w :: ws) h
    | _ => exact key (_ :: ws) h

theorem ext_parts : Extends (TsSyntax.parts (n + 1)) (TsSyntax.parts (m + 1)) := by
  intro ws x r s hs h
  cases ws with
  | nil => simp [TsSyntax.parts] at h
  | cons a ws =>
    cases a with
    | chunk c =>
      simp only [TsSyntax.parts, List.cons_append, bind, Option.bind] at h ⊢
      cases hp : TsSyntax.parts n ws with
      | none => simp [hp] at h
      | some q =>
        obtain ⟨ps, ws1⟩ := q
        rw [ih.parts _ _ _ _ hs hp]
        simp only [hp] at h ⊢
        cases c with
        | nil =>
          simp only [Option.some.injEq, Prod.mk.injEq, pure] at h ⊢
          obtain ⟨rfl, rfl⟩ := h
          exact ⟨rfl, rfl⟩
        | cons d c =>
          simp only [Option.some.injEq, Prod.mk.injEq, pure] at h ⊢
          obtain ⟨rfl, rfl⟩ := h
          exact ⟨rfl, rfl⟩
    | hole =>
      simp only [TsSyntax.parts, List.cons_append, bind, Option.bind] at h ⊢
      cases ht : TsSyntax.type n ws with
      | none => simp [ht] at h
      | some q =>
        obtain ⟨t, ws1⟩ := q
        rw [ih.type _ _ _ _ hs ht]
        simp only [ht] at h ⊢
        split at h
        · rename_i ws2
          simp only [List.cons_append]
          cases hp : TsSyntax.parts n ws2 with
          | none => simp [hp] at h
          | some q =>
            obtain ⟨ps, ws3⟩ := q
            rw [ih.parts _ _ _ _ hs hp]
            simp only [hp, Option.some.injEq, Prod.mk.injEq, pure] at h ⊢
            obtain ⟨rfl, rfl⟩ := h
            exact ⟨rfl, rfl⟩
        · simp at h
    | tock =>
      simp only [TsSyntax.parts, List.cons_append, Option.some.injEq, Prod.mk.injEq] at h ⊢
      obtain ⟨rfl, rfl⟩ := h
      exact ⟨rfl, rfl⟩
    | _ => simp [TsSyntax.parts] at h

theorem ext_prim : Extends (primary (n + 1)) (primary (m + 1)) := by
  intro ws x r s hs h
  cases ws with
  | nil => simp [primary] at h
  | cons a ws =>
    cases a with
    | str c =>
      simp only [primary, List.cons_append, Option.some.injEq, Prod.mk.injEq] at h ⊢
      obtain ⟨rfl, rfl⟩ := h
      exact ⟨rfl, rfl⟩
    | num c =>
      simp only [primary, List.cons_append, Option.some.injEq, Prod.mk.injEq] at h ⊢
      obtain ⟨rfl, rfl⟩ := h
      exact ⟨rfl, rfl⟩
    | tick =>
      simp only [primary, List.cons_append, bind, Option.bind] at h ⊢
      cases hp : TsSyntax.parts n ws with
      | none => simp [hp] at h
      | some q =>
        obtain ⟨ps, ws1⟩ := q
        rw [ih.parts _ _ _ _ hs hp]
        simp only [hp, pure] at h ⊢
        split at h <;> simp only [Option.some.injEq, Prod.mk.injEq] at h <;> obtain ⟨rfl, rfl⟩ := h <;> simp_all
    | punct c =>
      by_cases h1 : c = '['
      · subst h1
        simp only [primary, List.cons_append, bind, Option.bind] at h ⊢
        cases he : TsSyntax.elems n ws with
        | none => simp [he] at h
        | some q =>
          obtain ⟨es, ws1⟩ := q
          rw [ih.elems _ _ _ _ hs he]
          simp only [he, pure, Option.some.injEq, Prod.mk.injEq] at h ⊢
          obtain ⟨rfl, rfl⟩ := h
          exact ⟨rfl, rfl⟩
      · by_cases h2 : c = '{'
        · subst h2
          simp only [primary, List.cons_append, bind, Option.bind] at h ⊢
          cases he : members n ws with
          | none => simp [he] at h
          | some q =>
            obtain ⟨es, ws1⟩ := q
            rw [ih.mems _ _ _ _ hs he]
            simp only [he, pure, Option.some.injEq, Prod.mk.injEq] at h ⊢
            obtain ⟨rfl, rfl⟩ := h
            exact ⟨rfl, rfl⟩
        · simp [primary, h1, h2] at h
    | id w =>
      cases ws with
      | nil =>
        simp only [primary, Option.some.injEq, Prod.mk.injEq] at h
        obtain ⟨rfl, rfl⟩ := h
        cases s with
        | nil => simp [primary]
        | cons b s =>
          cases b with
          | punct c =>
            have := (stops_punct hs).2.2
            simp [primary, this]
          | _ => simp [primary]
      | cons b ws =>
        by_cases hb : b = .punct '<'
        · subst hb
          simp only [primary, List.cons_append, bind, Option.bind] at h ⊢
          cases he : TsSyntax.args n ws with
          | none => simp [he] at h
          | some q =>
            obtain ⟨es, ws1⟩ := q
            rw [ih.args _ _ _ _ hs he]
            simp only [he, pure, Option.some.injEq, Prod.mk.injEq] at h ⊢
            obtain ⟨rfl, rfl⟩ := h
            exact ⟨rfl, rfl⟩
        · have form : ∀ k l, primary (k + 1) (.id w :: b :: l) = some ((keyword w).getD (.ref w .nil), b :: l) := by
            intro k l
            rw [primary]
            intro ws he
            simp only [List.cons.injEq] at he
            exact hb he.1
          rw [form] at h
          simp only [Option.some.injEq, Prod.mk.injEq] at h
          obtain ⟨rfl, rfl⟩ := h
          rw [List.cons_append, List.cons_append, form]
    | _ => simp [primary] at h

theorem ext_args : Extends (TsSyntax.args (n + 1)) (TsSyntax.args (m + 1)) := by
  intro ws x r s hs h
  have key : ∀ ws, (TsSyntax.type n ws).bind (fun q => (TsSyntax.args n q.2).bind fun q' => some (Exps.cons .elem q.1 q'.1, q'.2)) = some (x, r) →
      (TsSyntax.type m (ws ++ s)).bind (fun q => (TsSyntax.args m q.2).bind fun q' => some (Exps.cons .elem q.1 q'.1, q'.2)) =
        some (x, r ++ s) := by
    intro ws h
    cases ht : TsSyntax.type n ws with
    | none => simp [ht] at h
    | some q =>
      obtain ⟨t, ws1⟩ := q
      rw [ih.type _ _ _ _ hs ht]
      simp only [ht, Option.bind] at h ⊢
      cases ha : TsSyntax.args n ws1 with
      | none => simp [ha] at h
      | some q =>
        obtain ⟨ts, ws2⟩ := q
        rw [ih.args _ _ _ _ hs ha]
        simp only [ha, Option.some.injEq, Prod.mk.injEq] at h ⊢
        obtain ⟨rfl, rfl⟩ := h
        exact ⟨rfl, rfl⟩
  cases ws with
  | nil => simp only [TsSyntax.args, type_nil, bind, Option.bind] at h; cases h
  | cons a ws =>
    by_cases h1 : a = .punct '>'
    · subst h1
      simp only [TsSyntax.args, List.cons_append, Option.some.injEq, Prod.mk.injEq] at h ⊢
      obtain ⟨rfl, rfl⟩ := h
      exact ⟨rfl, rfl⟩
    · by_cases h2 : a = .punct ','
      · subst h2
        simp only [TsSyntax.args, List.cons_append] at h ⊢
        exact ih.args _ _ _ _ hs h
      · have form : ∀ k l, TsSyntax.args (k + 1) (a :: l) = (TsSyntax.type k (a :: l)).bind (fun q =>
            (TsSyntax.args k q.2).bind fun q' => some (Exps.cons .elem q.1 q'.1, q'.2)) := by
          intro k l
          conv => lhs; unfold TsSyntax.args
          split
          · rename_i he; exact absurd (List.cons.inj he).1 h1
          · rename_i he; exact absurd (List.cons.inj he).1 h2
          · rfl
        rw [List.cons_append, form]
        rw [form] at h
        exact key _ h

theorem ext_mems : Extends (members (n + 1)) (members (m + 1)) := by
  intro ws x r s hs h
  have key : ∀ (hd : Head) ws, (TsSyntax.type n ws).bind (fun q => (members n q.2).bind fun q' => some (Exps.cons hd q.1 q'.1, q'.2)) = some (x, r) →
      (TsSyntax.type m (ws ++ s)).bind (fun q => (members m q.2).bind fun q' => some (Exps.cons hd q.1 q'.1, q'.2)) =
        some (x, r ++ s) := by
    intro hd ws h
    cases ht : TsSyntax.type n ws with
    | none => simp [ht] at h
    | some q =>
      obtain ⟨t, ws1⟩ := q
      rw [ih.type _ _ _ _ hs ht]
      simp only [ht, Option.bind] at h ⊢
      cases ha : members n ws1 with
      | none => simp [ha] at h
      | some q =>
        obtain ⟨ts, ws2⟩ := q
        rw [ih.mems _ _ _ _ hs ha]
        simp only [ha, Option.some.injEq, Prod.mk.injEq] at h ⊢
        obtain ⟨rfl, rfl⟩ := h
        exact ⟨rfl, rfl⟩
  unfold members at h ⊢
  split at h
  · simp only [List.cons_append, Option.some.injEq, Prod.mk.injEq] at h ⊢
    obtain ⟨rfl, rfl⟩ := h
    exact ⟨rfl, rfl⟩
  · simp only [List.cons_append]; exact ih.mems _ _ _ _ hs h
  · simp only [List.cons_append]; exact ih.mems _ _ _ _ hs h
  · simp only [List.cons_append]; exact key _ _ h
  · simp only [List.cons_append]; exact key _ _ h
  · simp only [List.cons_append]; exact key _ _ h
  · simp only [List.cons_append]; exact key _ _ h
  · cases h

theorem ext_elems : Extends (TsSyntax.elems (n + 1)) (TsSyntax.elems (m + 1)) := by
  intro ws x r s hs h
  have key : ∀ (hd : Head) ws, (TsSyntax.type n ws).bind (fun q => (TsSyntax.elems n q.2).bind fun q' => some (Exps.cons hd q.1 q'.1, q'.2)) = some (x, r) →
      (TsSyntax.type m (ws ++ s)).bind (fun q => (TsSyntax.elems m q.2).bind fun q' => some (Exps.cons hd q.1 q'.1, q'.2)) =
        some (x, r ++ s) := by
    intro hd ws h
    cases ht : TsSyntax.type n ws with
    | none => simp [ht] at h
    | some q =>
      obtain ⟨t, ws1⟩ := q
      rw [ih.type _ _ _ _ hs ht]
      simp only [ht, Option.bind] at h ⊢
      cases ha : TsSyntax.elems n ws1 with
      | none => simp [ha] at h
      | some q =>
        obtain ⟨ts, ws2⟩ := q
        rw [ih.elems _ _ _ _ hs ha]
        simp only [ha, Option.some.injEq, Prod.mk.injEq] at h ⊢
        obtain ⟨rfl, rfl⟩ := h
        exact ⟨rfl, rfl⟩
  unfold TsSyntax.elems at h ⊢
  split at h
  · simp only [List.cons_append, Option.some.injEq, Prod.mk.injEq] at h ⊢
    obtain ⟨rfl, rfl⟩ := h
    exact ⟨rfl, rfl⟩
  · simp only [List.cons_append]; exact ih.elems _ _ _ _ hs h
  · simp only [List.cons_append]; exact key _ _ h
  · simp only [List.cons_append]; exact key _ _ h
  · rename_i h1 h2 h3 h4
    have ht : ∃ t ws1, TsSyntax.type n ws = some (t, ws1) ∧ ws1 ≠ [] := by
      cases ht : TsSyntax.type n ws with
      | none => rw [ht] at h; cases h
      | some q =>
        obtain ⟨t, ws1⟩ := q
        refine ⟨t, ws1, rfl, ?_⟩
        rintro rfl
        rw [ht] at h
        simp only [bind, Option.bind, elems_nil] at h
        cases h
    obtain ⟨t, ws1, ht, hne⟩ := ht
    split
    · rename_i he
      cases ws with
      | nil => rw [type_nil] at ht; cases ht
      | cons a ws => exact absurd (by rw [(List.cons.inj he).1]) (h1 ws)
    · rename_i he
      cases ws with
      | nil => rw [type_nil] at ht; cases ht
      | cons a ws => exact absurd (by rw [(List.cons.inj he).1]) (h2 ws)
    · rename_i he
      cases ws with
      | nil => rw [type_nil] at ht; cases ht
      | cons a ws =>
        obtain ⟨rfl, he⟩ := List.cons.inj he
        rw [type_dot] at ht
        cases ht
    · rename_i he
      cases ws with
      | nil => rw [type_nil] at ht; cases ht
      | cons a ws =>
        obtain ⟨rfl, he'⟩ := List.cons.inj he
        cases ws with
        | nil => exact absurd (type_id ht) hne
        | cons b ws =>
          obtain ⟨he1, _⟩ := List.cons.inj he'
          subst he1
          exact absurd rfl (h4 _ _)
    · exact key _ _ h

end

theorem ext : ∀ n m, n ≤ m → Ext n m
  | 0, m, _ => by
    constructor
    all_goals intros
    all_goals intro ws x r s _ h
    all_goals first
      | (simp only [TsSyntax.type] at h; cases h) | (simp only [unionType] at h; cases h) | (simp only [unionRest] at h; cases h)
      | (simp only [prefixType] at h; cases h) | (simp only [indices] at h; cases h) | (simp only [primary] at h; cases h)
      | (simp only [TsSyntax.parts] at h; cases h) | (simp only [TsSyntax.elems] at h; cases h)
      | (simp only [members] at h; cases h) | (simp only [TsSyntax.args] at h; cases h)
  | n + 1, 0, h => by omega
  | n + 1, m + 1, h => by
    have ih := ext n m (by omega)
    exact ⟨ext_type ih, ext_union ih, ext_rest ih, ext_pre ih, ext_idx ih, ext_prim ih, ext_parts ih, ext_elems ih, ext_mems ih,
      ext_args ih⟩

end Verif.Spec.TsSyntax
