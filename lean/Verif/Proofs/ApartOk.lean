import Verif.Spec.Apart
import Verif.Proofs.MunchEnds
import Verif.Proofs.PieceWalk

/-! Words written apart (C95). -/

namespace Verif
open Spec

theorem pnext_ranges {h : Hir} {as : List Match} {m : Match} (hn : PNext h as m) : m ∈ ranges h := by
  have mem : ∀ {h : Hir} {hs : List Hir}, h ∈ hs → m ∈ ranges h → m ∈ rangesAll hs := by
    intro h hs hh hm
    induction hs with
    | nil => simp at hh
    | cons a hs ih =>
      rw [rangesAll, List.mem_append]
      rcases List.mem_cons.mp hh with rfl | hh
      · exact .inl hm
      · exact .inr (ih hh)
  induction hn with
  | lit => simp [ranges]
  | cls hr => simp only [ranges, List.mem_map]; exact ⟨_, hr, rfl⟩
  | repFirst _ ih => exact ih mem
  | repMore _ _ _ ih => exact ih mem
  | group _ ih => exact ih mem
  | concatHead _ ih => exact mem (by simp) (ih mem)
  | concatTail _ _ ih =>
    have := ih mem
    rw [ranges] at this ⊢
    rw [rangesAll, List.mem_append]
    exact .inr this
  | alt hh _ ih => exact mem hh (ih mem)

theorem free_not_viable {al : List Match} {toks : List (TokenDef × Hir)} {c : Char} (h : Free toks c) (w : List Char) :
    ¬ PViable al toks (w ++ [c]) := by
  rintro ⟨as, hr⟩
  generalize hw : w ++ [c] = v at hr
  cases hr with
  | nil => simp at hw
  | snoc _ hch =>
    obtain ⟨-, hc⟩ := List.append_inj' hw rfl
    cases hc
    obtain ⟨l1, l2, rfl, hm, ⟨r, ⟨hh, h1, h2⟩, hwi⟩, -⟩ := hch
    obtain ⟨p, hp, rfl⟩ := List.mem_map.mp h1
    exact h.2 r (List.mem_flatMap.mpr ⟨p, hp, pnext_ranges h2⟩) (hwi _ hm)

theorem Spec.Apart.chars {B : Char → Prop} {ws : List (List Char)} {s : List Char} (h : Apart B ws s) : ∀ c ∈ s, B c ∨ ∃ w ∈ ws, c ∈ w := by
  induction h with
  | nil => simp
  | blank hc _ ih =>
    intro d hd
    rcases List.mem_cons.mp hd with rfl | hd
    · exact .inl hc
    · exact ih d hd
  | last => intro d hd; exact .inr ⟨_, by simp, hd⟩
  | word hc _ ih =>
    intro d hd
    rcases List.mem_append.mp hd with hd | hd
    · exact .inr ⟨_, by simp, hd⟩
    · rcases List.mem_cons.mp hd with rfl | hd
      · exact .inl hc
      · rcases ih d hd with h | ⟨w, hw, h⟩
        · exact .inl h
        · exact .inr ⟨w, by simp [hw], h⟩

namespace Lex
variable {T : List Char → Nat → Prop} {V : List Char → Prop}

theorem longest_apart (hT : ∀ w i, T w i → V w) (hV : ∀ w v, V (w ++ v) → V w) {c : Char} (hc : ∀ w, ¬ V (w ++ [c])) {w s : List Char} {i : Nat}
    (hw : w ≠ []) (h : T w i) : LongestToken T (w ++ c :: s) w i ∧ ¬ V (w ++ c :: s) := by
  have hn : ∀ t, ¬ V (w ++ c :: t) := fun t ht => hc w (hV _ t (by simpa using ht))
  refine ⟨⟨hw, ⟨_, rfl⟩, h, fun v j ⟨r, hr⟩ hlt ht => ?_⟩, hn s⟩
  obtain ⟨t, rfl⟩ := List.prefix_of_prefix_length_le (l₁ := w) (l₂ := v) (l₃ := w ++ c :: s) ⟨_, rfl⟩ ⟨r, hr.symm⟩ (by omega)
  cases t with
  | nil => simp at hlt
  | cons d t =>
    rw [List.append_assoc] at hr
    have := List.append_cancel_left hr
    simp only [List.cons_append, List.cons.injEq] at this
    obtain ⟨rfl, -⟩ := this
    exact hn t (hT _ _ ht)

theorem munch_apart (hT : ∀ w i, T w i → V w) (hV : ∀ w v, V (w ++ v) → V w) {B : Char → Prop} (hB : ∀ c, B c → Blank c ∧ ∀ w, ¬ V (w ++ [c]))
    {ws : List (List Char)} {s : List Char} (h : Apart B ws s) : ∀ {is : List Nat}, List.Forall₂ (fun i w => w ≠ [] ∧ T w i) is ws → ∀ k,
      ∃ out, Munch T V k s out [] ∧ MunchErr T V k s out none ∧ out.map Prod.snd = is.zip ws := by
  induction h with
  | nil => intro is h k; cases h; exact ⟨[], .done, .done, rfl⟩
  | @blank c ws s hc _ ih =>
    intro is h k
    obtain ⟨out, h1, h2, h3⟩ := ih h (k + 1)
    obtain ⟨hb, hv⟩ := hB c hc
    exact ⟨out, .blank hb (hv []) h1, .blank hb (hv []) h2, h3⟩
  | @last w =>
    intro is h k
    obtain ⟨i, rfl, hw, ht⟩ : ∃ i, is = [i] ∧ w ≠ [] ∧ T w i := by
      cases h with | @cons i _ _ _ h1 h => cases h; exact ⟨i, rfl, h1⟩
    have hl : LongestToken T w w i := ⟨hw, ⟨[], by simp⟩, ht, fun v j ⟨r, hr⟩ hlt _ => by rw [hr] at hlt; simp at hlt; omega⟩
    exact ⟨[(k, i, w)], .tokEnd hl (by simp) (hT _ _ ht), .tokEnd (rest := []) hl (by simp) (hT _ _ ht), rfl⟩
  | @word w c ws s hc _ ih =>
    intro is h k
    cases h with
    | @cons i _ is _ h1 h =>
      obtain ⟨hb, hv⟩ := hB c hc
      obtain ⟨out, h2, h3, h4⟩ := ih h (k + w.length + 1)
      obtain ⟨hl, hn⟩ := longest_apart hT hV hv (s := s) h1.1 h1.2
      exact ⟨(k, i, w) :: out, .tok hl rfl hn (.blank hb (hv []) h2), .tok hl rfl hn (.blank hb (hv []) h3), by simp [h4]⟩

end Lex
end Verif
