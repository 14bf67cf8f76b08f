import Verif.Proofs.TsReadOk
import Verif.Spec.TsWritten

/-! # More fuel reads the same file -/

namespace Verif.Spec.TsProject
open Verif MiniTs TsSyntax

variable {n m : Nat}

theorem type_more (h : n ≤ m) {ws : List Word} {q : Exp × List Word} (hq : TsSyntax.type n ws = some q) :
    TsSyntax.type m ws = some q := by
  have := (ext n m h).type ws q.1 q.2 [] rfl hq
  simpa using this

theorem union_more (h : n ≤ m) {ws : List Word} {q : Exp × List Word} (hq : unionType n ws = some q) :
    unionType m ws = some q := by
  have := (ext n m h).union ws q.1 q.2 [] rfl hq
  simpa using this

/-- What `f` finds, `g` finds as well. -/
def Finds {α β : Type} (f g : α → Option β) : Prop := ∀ a b, f a = some b → g a = some b

theorem bind_more {α β : Type} {o o' : Option α} {f g : α → Option β} {b : β} (h : o.bind f = some b)
    (ho : ∀ a, o = some a → o' = some a) (hf : ∀ a, f a = some b → g a = some b) : o'.bind g = some b := by
  cases o with
  | none => cases h
  | some a =>
    rw [ho a rfl]
    exact hf a h

theorem params_more : ∀ {n m : Nat}, n ≤ m → ∀ {ws : List Word} {q : List Str × List Word}, params n ws = some q → params m ws = some q
  | 0, _, _, _, _, hq => by simp [params] at hq
  | n + 1, 0, h, _, _, _ => absurd h (by omega)
  | n + 1, m + 1, h, ws, q, hq => by
    have h' : n ≤ m := by omega
    have ih : ∀ {ws q}, params n ws = some q → params m ws = some q := params_more h'
    unfold params at hq ⊢
    split at hq
    · exact hq
    · exact ih hq
    · dsimp only at hq ⊢
      have tail : ∀ {x : Str} {ws : List Word},
          (match ws with
            | .punct '=' :: ws => ((unionType n ws).map (·.2)).bind fun ws => (params n ws).bind fun r => some (x :: r.1, r.2)
            | ws => (params n ws).bind fun r => some (x :: r.1, r.2)) = some q →
          (match ws with
            | .punct '=' :: ws => ((unionType m ws).map (·.2)).bind fun ws => (params m ws).bind fun r => some (x :: r.1, r.2)
            | ws => (params m ws).bind fun r => some (x :: r.1, r.2)) = some q := by
        intro x ws hq
        split at hq
        · refine bind_more hq (fun a ha => ?_) fun a ha => bind_more ha (fun c hc => ih hc) fun c hc => hc
          rw [Option.map_eq_bind] at ha ⊢
          exact bind_more ha (fun _ hu => union_more h' hu) fun _ h => h
        · exact bind_more hq (fun c hc => ih hc) fun c hc => hc
      split at hq
      · split at hq
        · rename_i hw
          simp only [if_pos hw]
          refine bind_more hq (fun a ha => ?_) fun a ha => tail ha
          rw [Option.map_eq_bind] at ha ⊢
          exact bind_more ha (fun _ hu => union_more h' hu) fun _ h => h
        · cases hq
      · exact tail hq
    · cases hq

theorem aliases_more : ∀ {n m : Nat}, n ≤ m → ∀ {ws : List Word} {q : List Decl × List Word}, aliases n ws = some q → aliases m ws = some q
  | 0, _, _, _, _, hq => by simp [aliases] at hq
  | n + 1, 0, h, _, _, _ => absurd h (by omega)
  | n + 1, m + 1, h, ws, q, hq => by
    have h' : n ≤ m := by omega
    have ih : ∀ {ws q}, aliases n ws = some q → aliases m ws = some q := aliases_more h'
    unfold aliases at hq ⊢
    split at hq
    · exact ih hq
    · split at hq
      · rename_i hc
        simp only [if_pos hc]
        exact ih hq
      · rename_i hc
        simp only [if_neg hc]
        split at hq
        · rename_i hw
          simp only [if_pos hw]
          dsimp only at hq ⊢
          have tail : ∀ {x : Str} {ps : List Str} {ws : List Word},
              (match ws with
                | .punct '=' :: ws => (TsSyntax.type n ws).bind fun r => (aliases n r.2).bind fun d => some ((x, ps, r.1) :: d.1, d.2)
                | _ => none) = some q →
              (match ws with
                | .punct '=' :: ws => (TsSyntax.type m ws).bind fun r => (aliases m r.2).bind fun d => some ((x, ps, r.1) :: d.1, d.2)
                | _ => none) = some q := by
            intro x ps ws hq
            split at hq
            · exact bind_more hq (fun b hb => type_more h' hb) fun b hb => bind_more hb (fun c hc => ih hc) fun c hc => hc
            · cases hq
          split at hq
          · exact bind_more hq (fun b hb => params_more h' hb) fun b hb => tail hb
          · exact tail hq
        · rename_i hw
          simp only [if_neg hw]
          exact hq
    · exact hq

theorem items_more : ∀ {n m : Nat}, n ≤ m → ∀ {ws : List Word} {q : File}, items n ws = some q → items m ws = some q
  | 0, _, _, _, _, hq => by simp [items] at hq
  | n + 1, 0, h, _, _, _ => absurd h (by omega)
  | n + 1, m + 1, h, ws, q, hq => by
    have h' : n ≤ m := by omega
    have ih : ∀ {ws q}, items n ws = some q → items m ws = some q := items_more h'
    have tail : ∀ {ws : List Word},
        ((aliases n ws).bind fun r => match r.1 with
          | [] => none
          | ds => (items n r.2).bind fun F => some { F with decls := ds ++ F.decls }) = some q →
        ((aliases m ws).bind fun r => match r.1 with
          | [] => none
          | ds => (items m r.2).bind fun F => some { F with decls := ds ++ F.decls }) = some q := by
      intro ws hq
      refine bind_more hq (fun a ha => aliases_more h' ha) ?_
      rintro ⟨ds, ws⟩ ha
      dsimp only at ha ⊢
      split at ha
      · cases ha
      · exact bind_more ha (fun b hb => ih hb) fun b hb => hb
    unfold items at hq ⊢
    split at hq
    · exact hq
    · exact ih hq
    · split at hq
      · rename_i hw
        simp only [if_pos hw]
        exact bind_more hq (fun a ha => ha) fun a ha => bind_more ha (fun b hb => ih hb) fun b hb => hb
      · rename_i hw
        simp only [if_neg hw]
        split at hq
        · split at hq
          · rename_i hc
            simp only [if_pos hc]
            refine bind_more hq (fun a ha => aliases_more h' ha) ?_
            rintro ⟨ds, ws⟩ ha
            dsimp only at ha ⊢
            split at ha
            · exact bind_more ha (fun b hb => ih hb) fun b hb => hb
            · cases ha
          · rename_i hc
            simp only [if_neg hc]
            exact tail hq
        · exact tail hq
    · cases hq

theorem reads_of_file {text : Str} {F : File} (h : TsProject.file text = some F) : Reads text F := by
  unfold TsProject.file at h
  cases hs : TsSyntax.scan text with
  | none => rw [hs] at h; cases h
  | some ws =>
    rw [hs] at h
    exact ⟨ws, hs, _, fun n hn => items_more hn h⟩

theorem reads_unique {text : Str} {F F' : File} (h : Reads text F) (h' : Reads text F') : F = F' := by
  obtain ⟨ws, h1, k, h2⟩ := h
  obtain ⟨ws', h1', k', h2'⟩ := h'
  cases h1.symm.trans h1'
  exact Option.some.inj ((h2 (max k k') (by omega)).symm.trans (h2' (max k k') (by omega)))

end Verif.Spec.TsProject
