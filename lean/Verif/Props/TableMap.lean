import Verif.Model.TableOps
import Verif.Spec.TableMap
import Verif.Proofs.TableOk

/-! # Property C72: tables are maps from pairs -/

namespace Verif.Props
open Verif Spec

section
variable {κ ν : Type} [BOrd κ] [DecidableEq κ] [LawfulBOrd κ]

/-- A table after a list of writes (specification of a history, not part of the code). -/
def written (ws : List (Write κ ν)) : Table κ ν := ws.foldl (fun t w => (t.insertOld w.1 w.2.1 w.2.2).1) Table.empty

theorem lastWrite_append {ws : List (Write κ ν)} {w : Write κ ν} {i : Nat} {k : κ} {v : ν} :
    LastWrite (ws ++ [w]) i k v ↔ if i = w.1 ∧ k = w.2.1 then w.2.2 = v else LastWrite ws i k v := by
  constructor
  · rintro ⟨b, a, h, ha⟩
    rcases List.eq_nil_or_concat a with rfl | ⟨a', x, rfl⟩
    · have : w = (i, k, v) := by simpa using List.append_inj_right' h rfl
      subst this; simp
    · have h4 : ws ++ [w] = (b ++ (i, k, v) :: a') ++ [x] := by simpa using h
      have hx : w = x := by simpa using List.append_inj_right' h4 rfl
      subst hx
      have := ha w (by simp)
      rw [if_neg fun e => this ⟨e.1.symm, e.2.symm⟩]
      exact ⟨b, a', List.append_inj_left' h4 rfl, fun y hy => ha y (by simp [hy])⟩
  · intro h
    split at h
    · rename_i e
      obtain ⟨i', k', v'⟩ := w
      obtain ⟨rfl, rfl⟩ := e
      subst h
      exact ⟨ws, [], rfl, by simp⟩
    · rename_i e
      obtain ⟨b, a, rfl, ha⟩ := h
      refine ⟨b, a ++ [w], by simp, fun y hy => ?_⟩
      rcases List.mem_append.mp hy with hy | hy
      · exact ha y hy
      · rw [List.mem_singleton.mp hy]; exact fun c => e ⟨c.1.symm, c.2.symm⟩

theorem mget_entry (t : Table κ ν) (i : Nat) (k : κ) (j : Nat) :
    mget j (t.entry i k).1 = if j = i then some ((mget i t).getD []) else mget j t := mget_minsert _ _ _ _

theorem insertOld_fst (t : Table κ ν) (i : Nat) (k : κ) (v : ν) : (t.insertOld i k v).1 = (t.entry i k).1.insert i k v := by
  unfold Table.insertOld
  generalize t.entry i k = p
  obtain ⟨t', e⟩ := p
  cases e <;> rfl

theorem insertOld_snd (t : Table κ ν) (i : Nat) (k : κ) (v : ν) : (t.insertOld i k v).2 = t.tryIndex i k := by
  unfold Table.insertOld Table.entry Table.tryIndex
  cases h : mget i t with
  | none => rfl
  | some row => simp only [Option.getD_some]; cases mget k row <;> rfl

theorem mget_insertOld (t : Table κ ν) (i : Nat) (k : κ) (v : ν) (j : Nat) :
    mget j (t.insertOld i k v).1 = if j = i then some (minsert k v ((mget i t).getD [])) else mget j t := by
  rw [insertOld_fst]
  unfold Table.insert
  rw [mget_entry, if_pos rfl]
  simp only [mget_minsert, mget_entry]
  by_cases h : j = i <;> simp [h]

theorem written_append (ws : List (Write κ ν)) (w : Write κ ν) :
    written (ws ++ [w]) = ((written ws).insertOld w.1 w.2.1 w.2.2).1 := by simp [written]

theorem tryIndex_written (ws : List (Write κ ν)) (i : Nat) (k : κ) (v : ν) :
    (written ws).tryIndex i k = some v ↔ LastWrite ws i k v := by
  induction ws using List.reverseRecOn with
  | nil => simp [written, Table.empty, Table.tryIndex, mget, LastWrite]
  | append_singleton ws w ih =>
    rw [lastWrite_append, written_append]
    unfold Table.tryIndex at ih ⊢
    rw [mget_insertOld]
    by_cases h : i = w.1
    · subst h
      rw [if_pos rfl]
      simp only [mget_minsert, true_and]
      by_cases hk : k = w.2.1
      · simp [hk]
      · rw [if_neg hk, if_neg hk, ← ih]
        cases mget w.1 (written ws) <;> simp [mget]
    · rw [if_neg h, if_neg fun c => h c.1]; exact ih

theorem rows_written (ws : List (Write κ ν)) (i : Nat) :
    match mget i (written ws) with
    | some row => row ≠ [] ∧ Columns ws i (row.map Prod.fst)
    | none => ∀ w ∈ ws, w.1 ≠ i := by
  induction ws using List.reverseRecOn with
  | nil => simp [written, Table.empty, mget]
  | append_singleton ws w ih =>
    rw [written_append, mget_insertOld]
    by_cases h : i = w.1
    · rw [if_pos h, ← h]
      obtain ⟨i', k', v'⟩ := w
      simp only at h
      subst h
      have hs : MSorted ((mget i (written ws)).getD []) := by
        cases hm : mget i (written ws) with
        | none => simp [MSorted, Sorted]
        | some row => rw [hm] at ih; exact ih.2.1
      have hmem : ∀ k, k ∈ ((mget i (written ws)).getD []).map Prod.fst ↔ ∃ v, (i, k, v) ∈ ws := by
        intro k
        cases hm : mget i (written ws) with
        | none =>
          rw [hm] at ih
          simp only [Option.getD_none, List.map_nil, List.not_mem_nil, false_iff, not_exists]
          exact fun v hv => ih _ hv rfl
        | some row => rw [hm] at ih; exact ih.2.2 k
      refine ⟨fun e => ?_, msorted_minsert hs, fun k => ?_⟩
      · have : k' ∈ (minsert k' v' ((mget i (written ws)).getD [])).map Prod.fst := mem_keys_minsert.mpr (Or.inl rfl)
        rw [e] at this; simp at this
      · rw [mem_keys_minsert, hmem]
        constructor
        · rintro (rfl | ⟨v, hv⟩)
          · exact ⟨v', by simp⟩
          · exact ⟨v, by simp [hv]⟩
        · rintro ⟨v, hv⟩
          rcases List.mem_append.mp hv with hv | hv
          · exact Or.inr ⟨v, hv⟩
          · simp only [List.mem_singleton, Prod.mk.injEq] at hv; exact Or.inl hv.2.1
    · rw [if_neg h]
      cases hm : mget i (written ws) with
      | none =>
        rw [hm] at ih
        intro x hx
        rcases List.mem_append.mp hx with hx | hx
        · exact ih x hx
        · rw [List.mem_singleton.mp hx]; exact fun e => h e.symm
      | some row =>
        rw [hm] at ih
        refine ⟨ih.1, ih.2.1, fun k => (ih.2.2 k).trans ?_⟩
        constructor
        · rintro ⟨v, hv⟩; exact ⟨v, by simp [hv]⟩
        · rintro ⟨v, hv⟩
          rcases List.mem_append.mp hv with hv | hv
          · exact ⟨v, hv⟩
          · exact absurd (congrArg Prod.fst (List.mem_singleton.mp hv)) h

/-- C72: a lookup finds the last write into the cell, whatever was written before and elsewhere. -/
theorem C72_lookup (ws : List (Write κ ν)) (i : Nat) (k : κ) (v : ν) :
    (written ws).tryIndex i k = some v ↔ LastWrite ws i k v := tryIndex_written ws i k v

/-- C72: a write answers with what a lookup would have found before it. -/
theorem C72_answer (ws : List (Write κ ν)) (i : Nat) (k : κ) (v old : ν) :
    ((written ws).insertOld i k v).2 = some old ↔ LastWrite ws i k old := by
  rw [insertOld_snd, tryIndex_written]

/-- C72: `entry` says whether the cell was written and changes no cell. -/
theorem C72_entry (ws : List (Write κ ν)) (i : Nat) (k : κ) :
    (∀ v, ((written ws).entry i k).2 = .occupied v ↔ LastWrite ws i k v) ∧
    ∀ j k', ((written ws).entry i k).1.tryIndex j k' = (written ws).tryIndex j k' := by
  refine ⟨fun v => ?_, fun j k' => ?_⟩
  · rw [← tryIndex_written]
    unfold Table.entry Table.tryIndex
    cases h : mget i (written ws) with
    | none => simp [mget]
    | some row => simp only [Option.getD_some]; cases mget k row <;> simp
  · unfold Table.tryIndex
    rw [mget_entry]
    by_cases h : j = i
    · subst h; rw [if_pos rfl]; cases mget j (written ws) <;> simp [mget]
    · rw [if_neg h]

/-- C72: `valid` lists the columns of a row that were written, each once and in ascending order, and nothing if
none was. -/
theorem C72_valid (ws : List (Write κ ν)) (i : Nat) :
    (∀ ks, (written ws).valid i = some ks → ks ≠ [] ∧ Columns ws i ks) ∧
    ((written ws).valid i = none ↔ ∀ w ∈ ws, w.1 ≠ i) := by
  have := rows_written ws i
  unfold Table.valid
  cases h : mget i (written ws) with
  | none => rw [h] at this; exact ⟨by simp, by simpa using this⟩
  | some row =>
    rw [h] at this
    refine ⟨fun ks e => ?_, ?_⟩
    · cases e; exact ⟨by simpa using this.1, this.2⟩
    · simp only [Option.map_some, reduceCtorEq, false_iff, not_forall]
      obtain ⟨⟨k, v⟩, r, rfl⟩ := List.exists_cons_of_ne_nil this.1
      obtain ⟨v', hv⟩ := (this.2.2 k).mp (by simp)
      exact ⟨_, hv, fun c => c rfl⟩

theorem msorted_written (ws : List (Write κ ν)) : MSorted (written ws) := by
  induction ws using List.reverseRecOn with
  | nil => simp [written, Table.empty, MSorted, Sorted]
  | append_singleton ws w ih =>
    rw [written_append, insertOld_fst]
    have h1 : MSorted ((written ws).entry w.1 w.2.1).1 := msorted_minsert ih
    unfold Table.insert
    split <;> exact msorted_minsert h1

/-- C72: `Table.insert`, with which the model of the table construction fills its tables, is `insert` without the answer. -/
theorem C72_insert (ws : List (Write κ ν)) (w : Write κ ν) : (written ws).insert w.1 w.2.1 w.2.2 = written (ws ++ [w]) := by
  refine msorted_ext ?_ (msorted_written _) fun j => ?_
  · unfold Table.insert
    split <;> exact msorted_minsert (msorted_written ws)
  · rw [written_append, mget_insertOld]
    unfold Table.insert
    cases mget w.1 (written ws) <;> simp [mget_minsert, minsert]

/-- C72: iterating a table gives the rows that were written, each once and in ascending order, with their last values. -/
theorem C72_iter (ws : List (Write κ ν)) :
    ((written ws).map Prod.fst).Pairwise (· < ·) ∧
    (∀ i, i ∈ (written ws).map Prod.fst ↔ ∃ w ∈ ws, w.1 = i) ∧
    ∀ i row, (i, row) ∈ written ws → Columns ws i (row.map Prod.fst) ∧ ∀ k v, (k, v) ∈ row ↔ LastWrite ws i k v := by
  have hs := msorted_written ws
  refine ⟨?_, fun i => ?_, fun i row h => ?_⟩
  · exact List.Pairwise.imp (fun h => by simpa [blt] using h) hs
  · have := rows_written ws i
    rw [← mget_isSome_iff]
    cases h : mget i (written ws) with
    | none =>
      rw [h] at this
      simp only [Option.isSome_none, Bool.false_eq_true, false_iff, not_exists, not_and]
      exact this
    | some row =>
      rw [h] at this
      obtain ⟨⟨k, v⟩, r, rfl⟩ := List.exists_cons_of_ne_nil this.1
      obtain ⟨v', hv⟩ := (this.2.2 k).mp (by simp)
      simpa using ⟨k, v', hv⟩
  · have hm := (mget_eq_some_iff hs).mpr h
    have := rows_written ws i
    rw [hm] at this
    refine ⟨this.2, fun k v => ?_⟩
    rw [← tryIndex_written]
    unfold Table.tryIndex
    rw [hm]
    exact (mget_eq_some_iff this.2.1).symm

end

/-- Four writes, one of them over another, rows and columns out of order. -/
example : (written [(3, 5, 'a'), (1, 2, 'b'), (3, 4, 'c'), (3, 5, 'd')]).tryIndex 3 5 = some 'd' ∧
    (written [(3, 5, 'a'), (1, 2, 'b'), (3, 4, 'c'), (3, 5, 'd')]).valid 3 = some [4, 5] ∧
    ((written [(3, 5, 'a'), (1, 2, 'b'), (3, 4, 'c')]).insertOld 3 5 'd').2 = some 'a' ∧
    (written [(3, 5, 'a'), (1, 2, 'b'), (3, 4, 'c'), (3, 5, 'd')]).map Prod.fst = [1, 3] := by decide +kernel

/-- `entry` on a row that is not there leaves an empty row behind: then `valid` answers with no columns instead of
nothing. -/
theorem C72_empty_row : (Table.entry (κ := Nat) (ν := Char) (written [(1, 2, 'b')]) 3 5).1.valid 3 = some [] := by decide +kernel

end Verif.Props
