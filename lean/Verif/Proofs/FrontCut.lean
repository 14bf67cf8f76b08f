import Verif.Proofs.FrontLex

/-! # The tokens of a grammar file -/

namespace Verif.FrontEnd
open Verif.Spec

theorem mem_terminals {i : Nat} {t : (Str → Tok) × Hir} (h : terminals[i]? = some t) : t ∈ terminals :=
  List.mem_of_getElem? h

theorem spaceLen_zero {c : Char} {s : Str} (h : ¬ White c) : spaceLen (c :: s) = some 0 := by
  have : isSpace c = false := by
    cases hc : isSpace c with
    | false => rfl
    | true => exact absurd (white_iff.mp hc) h
  simp [spaceLen, this]

theorem pick_white {c : Char} {s : Str} (h : White c) :
    pick (c :: s) patterns none = some (none, ((c :: s).takeWhile isSpace).length) := by
  refine best_unique (pick_patterns _) ⟨14, spaceLen, rfl, rfl, fun j p m hj hm => ?_⟩
  obtain ⟨o, f⟩ := p
  rcases terminal_of_table hj with ⟨mk, hir, rfl, ht, hr⟩ | ⟨rfl, rfl, rfl⟩
  · obtain ⟨h1, h2⟩ := hr.hit hm
    obtain ⟨d, s', e, hd⟩ := terminal_head (mem_terminals ht) h2
    cases m with
    | zero => simp at e
    | succ m => simp at e; exact absurd (e.1 ▸ h) hd
  · cases hm
    exact ⟨Nat.le_refl _, fun h => absurd h (by omega)⟩

theorem pick_longest {i : Nat} {w rest : Str} {mk : Str → Tok} {h : Hir} (hl : Longest i w rest)
    (ht : terminals[i]? = some (mk, h)) : pick (w ++ rest) patterns none = some (some mk, w.length) := by
  obtain ⟨t, ht', hm⟩ := hl.hit
  rw [ht] at ht'
  cases ht'
  obtain ⟨f, hf, hr⟩ := table_of_terminal ht
  have bound : ∀ {j : Nat} {mk' : Str → Tok} {h' : Hir} {g : Str → Option Nat} {m : Nat},
      terminals[j]? = some (mk', h') → Reads g h' → g (w ++ rest) = some m → m ≤ w.length ∧ (m = w.length → Matches h' w) := by
    intro j mk' h' g m hj hg hgm
    obtain ⟨h1, h2⟩ := hg.hit hgm
    have h3 := hl.longest _ (mem_terminals hj) _ _ (List.take_append_drop m (w ++ rest)).symm h2
    rw [List.length_take, Nat.min_eq_left h1] at h3
    refine ⟨h3, fun e => ?_⟩
    rw [e, List.take_append_of_le_length (Nat.le_refl _), List.take_length] at h2
    exact h2
  obtain ⟨n, hn, hle⟩ := hr.max rest hm
  have hn' := bound ht hr hn
  have e : n = w.length := by omega
  subst e
  refine best_unique (pick_patterns _) ⟨i, f, hf, hn, fun j p m hj hpm => ?_⟩
  obtain ⟨o, g⟩ := p
  rcases terminal_of_table hj with ⟨mk', h', rfl, ht', hr'⟩ | ⟨rfl, rfl, rfl⟩
  · obtain ⟨b1, b2⟩ := bound ht' hr' hpm
    refine ⟨b1, fun hij => ?_⟩
    rcases Nat.lt_or_eq_of_le b1 with hlt | heq
    · exact hlt
    · exact absurd (b2 heq) (hl.best j _ hij ht')
  · obtain ⟨c, s, rfl, hc⟩ := terminal_head (mem_terminals ht) hm
    have hpm' : spaceLen (c :: (s ++ rest)) = some m := hpm
    rw [spaceLen_zero hc] at hpm'
    cases hpm'
    simp

theorem pick_token {text : Str} {mk : Str → Tok} {n : Nat} (h : pick text patterns none = some (some mk, n)) :
    ∃ i hir, terminals[i]? = some (mk, hir) ∧ Longest i (text.take n) (text.drop n) ∧ 0 < n := by
  have hb := pick_patterns text
  rw [h] at hb
  obtain ⟨i, f, h1, h2, h3⟩ := hb
  rcases terminal_of_table h1 with ⟨mk', hir, e, ht, hr⟩ | ⟨_, e, _⟩
  · cases e
    obtain ⟨hn, hm⟩ := hr.hit h2
    refine ⟨i, hir, ht, ⟨⟨_, ht, hm⟩, fun t htm v r e hv => ?_, fun j t hij hj hv => ?_⟩, ?_⟩
    · obtain ⟨j, hj⟩ := List.getElem?_of_mem htm
      obtain ⟨g, hg, hgr⟩ := table_of_terminal hj
      obtain ⟨m, hgm, hle⟩ := hgr.max r hv
      rw [← e, List.take_append_drop] at hgm
      have := (h3 j _ m hg hgm).1
      rw [List.length_take, Nat.min_eq_left hn]
      omega
    · obtain ⟨g, hg, hgr⟩ := table_of_terminal hj
      obtain ⟨m, hgm, hle⟩ := hgr.max (text.drop n) hv
      rw [List.take_append_drop] at hgm
      have := (h3 j _ m hg hgm).2 hij
      rw [List.length_take, Nat.min_eq_left hn] at hle
      omega
    · cases n with
      | zero =>
        obtain ⟨c, s, e, _⟩ := terminal_head (mem_terminals ht) hm
        simp at e
      | succ n => omega
  · cases e

theorem pick_space {text : Str} {n : Nat} (h : pick text patterns none = some (none, n)) :
    n = (text.takeWhile isSpace).length := by
  have hb := pick_patterns text
  rw [h] at hb
  obtain ⟨i, f, h1, h2, h3⟩ := hb
  rcases terminal_of_table h1 with ⟨mk', hir, e, ht, hr⟩ | ⟨_, _, rfl⟩
  · cases e
  · exact (Option.some.inj h2).symm

theorem cut_spaces : ∀ {w s : Str} {ts : List Tok}, (∀ c ∈ w, White c) → Cut s ts → Cut (w ++ s) ts
  | [], _, _, _, h => h
  | c :: w, _, _, hw, h => .space (hw c (by simp)) (cut_spaces (fun x hx => hw x (by simp [hx])) h)

theorem cut_nil {ts : List Tok} (h : Cut [] ts) : ts = [] := by
  generalize hs : ([] : Str) = s at h
  cases h with
  | nil => rfl
  | space => cases hs
  | token hl ht _ =>
    obtain ⟨t, ht', hm⟩ := hl.hit
    obtain ⟨c, s, rfl, _⟩ := terminal_head (mem_terminals ht') hm
    cases hs

theorem cut_white {c : Char} {s : Str} {ts : List Tok} (hc : White c) (h : Cut (c :: s) ts) : Cut s ts := by
  generalize hs : c :: s = s' at h
  cases h with
  | nil => cases hs
  | space _ h => cases hs; exact h
  | token hl ht _ =>
    obtain ⟨t, ht', hm⟩ := hl.hit
    obtain ⟨d, s, rfl, hd⟩ := terminal_head (mem_terminals ht') hm
    cases hs
    exact absurd hc hd

theorem cut_whites : ∀ {w s : Str} {ts : List Tok}, (∀ c ∈ w, White c) → Cut (w ++ s) ts → Cut s ts
  | [], _, _, _, h => h
  | c :: w, _, _, hw, h => cut_whites (fun x hx => hw x (by simp [hx])) (cut_white (hw c (by simp)) h)

theorem takeWhile_white (s : Str) : ∀ c ∈ s.takeWhile isSpace, White c :=
  fun c hc => white_iff.mp (List.all_eq_true.mp List.all_takeWhile c hc)

theorem split_white (s : Str) : s = s.takeWhile isSpace ++ s.drop (s.takeWhile isSpace).length := by
  conv => lhs; rw [← List.take_append_drop (s.takeWhile isSpace).length s]
  rw [take_takeWhile]

theorem tokens_sound : ∀ {fuel : Nat} {text : Str} {ts : List Tok}, tokens fuel text = .ok ts → Cut text ts := by
  intro fuel
  induction fuel with
  | zero =>
    intro text ts h
    rw [tokens] at h
    split at h
    · rename_i he
      cases h
      rw [List.isEmpty_iff.mp he]; exact .nil
    · cases h
  | succ fuel ih =>
    intro text ts h
    rw [tokens] at h
    split at h
    · rename_i he
      cases h
      rw [List.isEmpty_iff.mp he]; exact .nil
    · split at h
      · rename_i mk n hp
        cases hr : tokens fuel (text.drop n) with
        | error e => rw [hr] at h; cases h
        | ok ts' =>
          rw [hr] at h
          cases h
          obtain ⟨i, hir, ht, hl, _⟩ := pick_token hp
          have := Cut.token hl ht (ih hr)
          rw [List.take_append_drop] at this
          exact this
      · rename_i n hp
        split at h
        · cases h
        · have hn := pick_space hp
          have hc := ih h
          rw [split_white text, ← hn]
          have hw := takeWhile_white text
          exact cut_spaces hw hc
      · cases h

theorem tokens_complete : ∀ {fuel : Nat} {text : Str} {ts : List Tok}, text.length ≤ fuel → Cut text ts →
    tokens fuel text = .ok ts := by
  intro fuel
  induction fuel with
  | zero =>
    intro text ts hl h
    have : text = [] := List.length_eq_zero_iff.mp (by omega)
    subst this
    rw [cut_nil h, tokens]
    rfl
  | succ fuel ih =>
    intro text ts hl h
    cases text with
    | nil => rw [cut_nil h, tokens]; rfl
    | cons c s =>
      rw [tokens]
      simp only [List.isEmpty_cons, Bool.false_eq_true, if_false]
      by_cases hc : White c
      · rw [pick_white hc]
        have hpos : 0 < ((c :: s).takeWhile isSpace).length := by
          rw [List.takeWhile_cons_of_pos (white_iff.mpr hc)]; simp
        simp only
        rw [if_neg (by omega)]
        refine ih ?_ ?_
        · rw [List.length_drop]; simp at hl hpos ⊢; omega
        · have h' : Cut ((c :: s).takeWhile isSpace ++ (c :: s).drop ((c :: s).takeWhile isSpace).length) ts := by
            rw [← split_white]; exact h
          exact cut_whites (takeWhile_white _) h'
      · generalize hs : c :: s = s' at h hl
        cases h with
        | nil => cases hs
        | space hw _ => cases hs; exact absurd hw hc
        | token hlg ht hr =>
          rename_i i w rest ts mk hir
          rw [pick_longest hlg ht]
          simp only [List.drop_left, List.take_left]
          obtain ⟨t, ht', hm⟩ := hlg.hit
          obtain ⟨d, s', rfl, _⟩ := terminal_head (mem_terminals ht') hm
          rw [ih (by simp at hl; omega) hr]
          rfl

theorem tokens_iff {text : Str} {ts : List Tok} : tokens text.length text = .ok ts ↔ Cut text ts :=
  ⟨tokens_sound, tokens_complete (Nat.le_refl _)⟩

/-- Text without a cutting is refused as a syntax error, never for lack of fuel. -/
theorem tokens_error : ∀ {fuel : Nat} {text : Str} {e : Err}, text.length ≤ fuel → tokens fuel text = .error e →
    e = .syntaxError := by
  intro fuel
  induction fuel with
  | zero =>
    intro text e hl h
    have : text = [] := List.length_eq_zero_iff.mp (by omega)
    subst this
    rw [tokens] at h
    cases h
  | succ fuel ih =>
    intro text e hl h
    rw [tokens] at h
    split at h
    · cases h
    · rename_i he
      have hpos : 0 < text.length := by
        cases text with
        | nil => simp at he
        | cons => simp
      split at h
      · rename_i mk n hp
        obtain ⟨_, _, _, _, hn⟩ := pick_token hp
        cases hr : tokens fuel (text.drop n) with
        | error e' =>
          rw [hr] at h
          cases h
          exact ih (by rw [List.length_drop]; omega) hr
        | ok ts' => rw [hr] at h; cases h
      · split at h
        · cases h; rfl
        · exact ih (by rw [List.length_drop]; omega) h
      · cases h; rfl

end Verif.FrontEnd
