import Verif.Proofs.TsReadRules
import Verif.Spec.TsGenFile

/-! # Reading declarations, imports and modules, rule by rule -/

namespace Verif.Spec.TsProject
open Verif MiniTs TsSyntax

/-- With enough fuel the words are a file. -/
def It (ws : List Word) (F : File) : Prop := ∃ k, ∀ n, k ≤ n → items n ws = some F

theorem al_nil : Rd aliases [] [] [] := Rd.step ⟨0, fun _ _ => rfl⟩

theorem al_close {r : List Word} : Rd aliases (.punct '}' :: r) [] (.punct '}' :: r) :=
  Rd.step ⟨0, fun n _ => by unfold aliases; rfl⟩

theorem al_semi {ws r : List Word} {ds : List Decl} (h : Rd aliases ws ds r) : Rd aliases (.punct ';' :: ws) ds r := by
  obtain ⟨k, h⟩ := h
  refine Rd.step ⟨k, fun n hn => ?_⟩
  simp only [aliases, h n hn]

theorem al_export {ws r : List Word} {ds : List Decl} (h : Rd aliases (.id "type".toList :: ws) ds r) :
    Rd aliases (.id "export".toList :: .id "type".toList :: ws) ds r := by
  obtain ⟨k, h⟩ := h
  refine Rd.step ⟨k, fun n hn => ?_⟩
  rw [aliases, if_pos ⟨rfl, rfl⟩, h n hn]

theorem al_plain {x : Str} {ws ws1 r : List Word} {t : Exp} {ds : List Decl} (h : Rd TsSyntax.type ws t ws1) (h' : Rd aliases ws1 ds r) :
    Rd aliases (.id "type".toList :: .id x :: .punct '=' :: ws) (aliasOf x t :: ds) r := by
  obtain ⟨k, h⟩ := h
  obtain ⟨k', h'⟩ := h'
  refine Rd.step ⟨k + k', fun n hn => ?_⟩
  have h1 : ¬("type".toList = "export".toList ∧ x = "type".toList) := fun h => absurd h.1 (by decide)
  rw [aliases, if_neg h1, if_pos rfl]
  change ((TsSyntax.type n ws).bind fun q => (aliases n q.2).bind fun q' => some ((x, [], q.1) :: q'.1, q'.2)) = _
  simp only [h n (by omega), h' n (by omega), Option.bind, aliasOf]

theorem al_params {x : Str} {ps : List Str} {ws ws1 ws2 r : List Word} {t : Exp} {ds : List Decl}
    (hp : Rd params ws ps (.punct '=' :: ws1)) (h : Rd TsSyntax.type ws1 t ws2) (h' : Rd aliases ws2 ds r) :
    Rd aliases (.id "type".toList :: .id x :: .punct '<' :: ws) ((x, ps, t) :: ds) r := by
  obtain ⟨j, hp⟩ := hp
  obtain ⟨k, h⟩ := h
  obtain ⟨k', h'⟩ := h'
  refine Rd.step ⟨j + k + k', fun n hn => ?_⟩
  have h1 : ¬("type".toList = "export".toList ∧ x = "type".toList) := fun h => absurd h.1 (by decide)
  rw [aliases, if_neg h1, if_pos rfl]
  simp only [hp n (by omega), h n (by omega), h' n (by omega), bind, Option.bind, pure]

theorem pa_nil {r : List Word} : Rd params (.punct '>' :: r) [] r := Rd.step ⟨0, fun n _ => by simp only [params]⟩

theorem pa_comma {ws r : List Word} {xs : List Str} (h : Rd params ws xs r) : Rd params (.punct ',' :: ws) xs r := by
  obtain ⟨k, h⟩ := h
  refine Rd.step ⟨k, fun n hn => ?_⟩
  simp only [params, h n hn]

theorem pa_extends {x : Str} {ws ws1 r : List Word} {c : Exp} {xs : List Str} (h : Rd unionType ws c ws1) (hw : noPunct '=' ws1 = true)
    (h' : Rd params ws1 xs r) : Rd params (.id x :: .id "extends".toList :: ws) (x :: xs) r := by
  obtain ⟨k, h⟩ := h
  obtain ⟨k', h'⟩ := h'
  refine Rd.step ⟨k + k', fun n hn => ?_⟩
  rw [params]
  simp only [if_true, h n (by omega), Option.map_some, bind, Option.bind]
  split
  · exact absurd rfl (noPunct_ne hw)
  · simp only [h' n (by omega), pure]

theorem it_nil : It [] ⟨[], [], []⟩ := ⟨1, fun n hn => by
  obtain ⟨n, rfl⟩ : ∃ m, n = m + 1 := ⟨n - 1, by omega⟩
  rfl⟩

/-- Declarations up to the end. -/
theorem it_export {x : Str} {ws : List Word} {d : Decl} {ds : List Decl}
    (h : Rd aliases (.id "export".toList :: .id "type".toList :: .id x :: .punct '=' :: ws) (d :: ds) []) :
    It (.id "export".toList :: .id "type".toList :: .id x :: .punct '=' :: ws) ⟨[], d :: ds, []⟩ := by
  obtain ⟨k, h⟩ := h
  refine ⟨k + 3, fun n hn => ?_⟩
  obtain ⟨n, rfl⟩ : ∃ m, n = m + 2 := ⟨n - 2, by omega⟩
  have h1 : "export".toList ≠ "import".toList := by decide
  rw [items]
  · simp only [if_neg h1, h (n + 1) (by omega), bind, Option.bind, pure, items, List.append_nil]
  · simp

/-- Declarations up to the end. -/
theorem it_type {x : Str} {ws : List Word} {d : Decl} {ds : List Decl}
    (h : Rd aliases (.id "type".toList :: .id x :: .punct '=' :: ws) (d :: ds) []) :
    It (.id "type".toList :: .id x :: .punct '=' :: ws) ⟨[], d :: ds, []⟩ := by
  obtain ⟨k, h⟩ := h
  refine ⟨k + 3, fun n hn => ?_⟩
  obtain ⟨n, rfl⟩ : ∃ m, n = m + 2 := ⟨n - 2, by omega⟩
  have h1 : "type".toList ≠ "import".toList := by decide
  rw [items]
  · simp only [if_neg h1, h (n + 1) (by omega), bind, Option.bind, pure, items, List.append_nil]
  · simp

theorem it_import {i : Import} {ws ws1 : List Word} {F : File} (h : importClause ws = some (i, ws1)) (h' : It ws1 F) :
    It (.id "import".toList :: ws) { F with imports := i :: F.imports } := by
  obtain ⟨k, h'⟩ := h'
  refine ⟨k + 1, fun n hn => ?_⟩
  obtain ⟨n, rfl⟩ : ∃ m, n = m + 1 := ⟨n - 1, by omega⟩
  simp only [items, if_true, h, h' n (by omega), bind, Option.bind, pure]

theorem it_module {x : Str} {ws ws1 : List Word} {ds : List Decl} {F : File} (h : Rd aliases ws ds (.punct '}' :: ws1)) (h' : It ws1 F) :
    It (.id "export".toList :: .id "declare".toList :: .id "module".toList :: .id x :: .punct '{' :: ws)
      { F with modules := (x, ds) :: F.modules } := by
  obtain ⟨k, h⟩ := h
  obtain ⟨k', h'⟩ := h'
  refine ⟨k + k' + 1, fun n hn => ?_⟩
  obtain ⟨n, rfl⟩ : ∃ m, n = m + 1 := ⟨n - 1, by omega⟩
  have h1 : "export".toList ≠ "import".toList := by decide
  simp only [items, if_neg h1, and_self, if_true, h n (by omega), h' n (by omega), bind, Option.bind, pure]

end Verif.Spec.TsProject
