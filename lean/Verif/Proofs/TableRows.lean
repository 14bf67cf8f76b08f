import Verif.Proofs.Order
import Verif.Model.Parse

/-! # The tables are sorted maps -/

namespace Verif
section
variable {κ ν : Type} [BOrd κ]

theorem mem_minsert_imp {k : κ} {v : ν} {x : κ × ν} : ∀ {m : List (κ × ν)}, x ∈ minsert k v m → x = (k, v) ∨ x ∈ m
  | [], h => by simpa [minsert] using h
  | (k', v') :: m, h => by
    simp only [minsert] at h
    split at h
    · simpa using h
    · split at h
      · rcases List.mem_cons.mp h with rfl | h
        · simp
        · rcases mem_minsert_imp h with h | h <;> simp [h]
      · rcases List.mem_cons.mp h with rfl | h <;> simp_all

theorem mem_foldl_minsert {x : κ × ν} : ∀ {l : List (κ × ν)} {m : List (κ × ν)},
    x ∈ l.foldl (fun m e => minsert e.1 e.2 m) m → x ∈ l ∨ x ∈ m
  | [], _, h => .inr h
  | e :: l, m, h => by
    rcases mem_foldl_minsert (l := l) h with h | h
    · simp [h]
    · rcases mem_minsert_imp h with h | h <;> simp [h]

variable [LawfulBOrd κ] [DecidableEq κ]

theorem msorted_foldl_minsert : ∀ {l : List (κ × ν)} {m : List (κ × ν)}, MSorted m →
    MSorted (l.foldl (fun m e => minsert e.1 e.2 m) m)
  | [], _, h => h
  | _ :: l, _, h => msorted_foldl_minsert (l := l) (msorted_minsert h)

/-- Rows and the entries of each row are sorted, and every key has the property. -/
def Table.Rows (P : κ → Prop) (t : Table κ ν) : Prop := MSorted t ∧ ∀ r ∈ t, MSorted r.2 ∧ ∀ e ∈ r.2, P e.1

omit [LawfulBOrd κ] [DecidableEq κ] in
theorem Table.rows_nil (P : κ → Prop) : Table.Rows P ([] : Table κ ν) := ⟨by simp [MSorted, Sorted], by simp⟩

theorem Table.rows_insert {P : κ → Prop} {t : Table κ ν} (h : t.Rows P) {i : Nat} {k : κ} {v : ν} (hk : P k) :
    (t.insert i k v).Rows P := by
  unfold Table.insert
  cases hm : mget i t with
  | none =>
    refine ⟨msorted_minsert h.1, fun r hr => ?_⟩
    rcases mem_minsert_imp hr with rfl | hr
    · exact ⟨by simp [MSorted, Sorted], by simpa using hk⟩
    · exact h.2 r hr
  | some inner =>
    have hi := h.2 _ (mget_mem hm)
    refine ⟨msorted_minsert h.1, fun r hr => ?_⟩
    rcases mem_minsert_imp hr with rfl | hr
    · refine ⟨msorted_minsert hi.1, fun e he => ?_⟩
      rcases mem_minsert_imp he with rfl | he
      · exact hk
      · exact hi.2 e he
    · exact h.2 r hr
end

namespace Lalr
open ItemSet
variable {g : Grammar} {d : Nat} {lalr lr : List ItemSet} {m : List (Nat × Nat)}

abbrev Any : Nat → Prop := fun _ => True

theorem claim_rows {t t' : Table Nat Action} {i k : Nat} {a : Action} (h : t.Rows Any) (hc : claim t i k a = .ok t') : t'.Rows Any := by
  unfold claim at hc
  split at hc
  · cases hc; exact Table.rows_insert h trivial
  · cases hc

theorem reduceLoop_rows {i : Nat} {it : Item} : ∀ {las : List Nat} {t t' : Table Nat Action}, t.Rows Any →
    reduceLoop i it las t = .ok t' → t'.Rows Any
  | [], t, t', h, hc => by cases hc; exact h
  | la :: las, t, t', h, hc => by
    simp only [reduceLoop] at hc
    split at hc
    · cases h1 : claim t i Lex.EOF_IDX .accept with
      | error e => simp [h1, bind, Except.bind] at hc
      | ok t1 =>
        simp only [h1, bind, Except.bind] at hc
        exact reduceLoop_rows (claim_rows h h1) hc
    · cases h1 : claim t i la (.reduce it.1) with
      | error e => simp [h1, bind, Except.bind] at hc
      | ok t1 =>
        simp only [h1, bind, Except.bind] at hc
        exact reduceLoop_rows (claim_rows h h1) hc

theorem actionItem_rows {i : Nat} {s : ItemSet} {e : Item × List Nat} {t t' : Table Nat Action} (h : t.Rows Any)
    (hc : actionItem g d lalr lr m i s e t = .ok t') : t'.Rows Any := by
  unfold actionItem at hc
  split at hc
  · split at hc
    · split at hc
      · cases hc
      · next x _ _ _ k _ =>
        cases h1 : computeGoto g d lalr lr m s x with
        | error e => simp [h1, bind, Except.bind] at hc
        | ok o =>
          simp only [h1, bind, Except.bind] at hc
          cases o with
          | none => cases hc; exact h
          | some j => exact claim_rows h hc
    · cases hc; exact h
  · exact reduceLoop_rows h hc

theorem actionItems_rows {i : Nat} {s : ItemSet} : ∀ {es : List (Item × List Nat)} {t t' : Table Nat Action}, t.Rows Any →
    actionItems g d lalr lr m i s es t = .ok t' → t'.Rows Any
  | [], t, t', h, hc => by cases hc; exact h
  | e :: es, t, t', h, hc => by
    simp only [actionItems] at hc
    cases h1 : actionItem g d lalr lr m i s e t with
    | error e => simp [h1, bind, Except.bind] at hc
    | ok t1 =>
      simp only [h1, bind, Except.bind] at hc
      exact actionItems_rows (actionItem_rows h h1) hc

theorem actionStates_rows : ∀ {ss : List ItemSet} {i : Nat} {t t' : Table Nat Action}, t.Rows Any →
    actionStates g d lalr lr m i ss t = .ok t' → t'.Rows Any
  | [], i, t, t', h, hc => by cases hc; exact h
  | s :: ss, i, t, t', h, hc => by
    simp only [actionStates] at hc
    cases h1 : actionItems g d lalr lr m i s s t with
    | error e => simp [h1, bind, Except.bind] at hc
    | ok t1 =>
      simp only [h1, bind, Except.bind] at hc
      exact actionStates_rows (actionItems_rows h h1) hc

theorem gotoRow_rows {i : Nat} {s : ItemSet} : ∀ {as : List Str} {t t' : Table Str Nat}, (∀ a ∈ as, a ∈ g.nonTerminals) →
    t.Rows (· ∈ g.nonTerminals) → gotoRow g d lalr lr m i s as t = .ok t' → t'.Rows (· ∈ g.nonTerminals)
  | [], t, t', _, h, hc => by cases hc; exact h
  | a :: as, t, t', ha, h, hc => by
    have ha' : ∀ a ∈ as, a ∈ g.nonTerminals := fun x hx => ha x (by simp [hx])
    simp only [gotoRow] at hc
    cases h1 : ItemSet.goto g d s (.nonTerm a) with
    | error e => simp [h1, bind, Except.bind] at hc
    | ok r =>
      simp only [h1, bind, Except.bind] at hc
      cases h2 : indexOf lr r with
      | some j =>
        simp only [h2] at hc
        cases h3 : mget j m with
        | none => simp [h3] at hc
        | some k => simp only [h3] at hc; exact gotoRow_rows ha' (Table.rows_insert h (ha a (by simp))) hc
      | none =>
        simp only [h2] at hc
        cases h3 : indexOf lalr r with
        | none => simp only [h3] at hc; exact gotoRow_rows ha' h hc
        | some k => simp only [h3] at hc; exact gotoRow_rows ha' (Table.rows_insert h (ha a (by simp))) hc

theorem gotoStates_rows : ∀ {ss : List ItemSet} {i : Nat} {t t' : Table Str Nat}, t.Rows (· ∈ g.nonTerminals) →
    gotoStates g d lalr lr m i ss t = .ok t' → t'.Rows (· ∈ g.nonTerminals)
  | [], i, t, t', h, hc => by cases hc; exact h
  | s :: ss, i, t, t', h, hc => by
    simp only [gotoStates] at hc
    cases h1 : gotoRow g d lalr lr m i s g.nonTerminals t with
    | error e => simp [h1, bind, Except.bind] at hc
    | ok t1 =>
      simp only [h1, bind, Except.bind] at hc
      exact gotoStates_rows (gotoRow_rows (fun _ h => h) h h1) hc

theorem makeTables_rows {H : Type} [DecidableEq H] {hash : List Item → H} {a : Table Nat Action} {t : Table Str Nat} {s : List ItemSet}
    (h : makeTables hash g d = .ok (a, t, s)) : a.Rows Any ∧ t.Rows (· ∈ g.nonTerminals) := by
  unfold makeTables at h
  cases h1 : items g d with
  | error e => simp [h1, bind, Except.bind] at h
  | ok lr =>
    simp only [h1, bind, Except.bind] at h
    cases h2 : mergeCores hash lr with
    | error e => simp [h2] at h
    | ok x =>
      obtain ⟨lalr, m⟩ := x
      simp only [h2, makeLalrTables, bind, Except.bind] at h
      cases h3 : actionStates g d lalr lr m 0 lalr [] with
      | error e => simp [h3] at h
      | ok a' =>
        simp only [h3] at h
        cases h4 : gotoStates g d lalr lr m 0 lalr [] with
        | error e => simp [h4] at h
        | ok t' =>
          simp only [h4, pure, Except.pure, Except.ok.injEq, Prod.mk.injEq] at h
          obtain ⟨rfl, rfl, rfl⟩ := h
          exact ⟨actionStates_rows (Table.rows_nil _) h3, gotoStates_rows (Table.rows_nil _) h4⟩

end Lalr
end Verif
