import Verif.Spec.Show

/-! # Lemmas: printing -/

namespace Verif.Show
open Verif Spec

theorem shows_display (t : Sym) : Shows t (display t) := by cases t <;> constructor

theorem shows_eq {t : Sym} {w : Str} (h : Shows t w) : w = display t := by cases h <;> rfl

theorem shows_map (ts : List Sym) : List.Forall₂ Shows ts (ts.map display) := by
  induction ts with
  | nil => exact .nil
  | cons t ts ih => exact .cons (shows_display t) ih

theorem shows_map_eq {ts : List Sym} {ws : List Str} (h : List.Forall₂ Shows ts ws) : ws = ts.map display := by
  induction h with
  | nil => rfl
  | cons h _ ih => rw [shows_eq h, ih]; rfl

theorem spelled_iff (ts : List Sym) (w : Str) : Spelled ts w ↔ w = [' '].intercalate (ts.map display) := by
  constructor
  · rintro ⟨ws, h, rfl⟩
    rw [shows_map_eq h]
  · rintro rfl
    exact ⟨_, shows_map ts, rfl⟩

theorem intercalate_cons_cons (a b : Str) (ws : List Str) :
    [' '].intercalate (a :: b :: ws) = a ++ ' ' :: [' '].intercalate (b :: ws) := by
  simp [List.intercalate, List.intersperse]

theorem intercalate_one (a : Str) : [' '].intercalate [a] = a := by simp [List.intercalate]

/-- The loop past the dot. -/
theorem loop_plain (dot : Option Nat) (last : Nat) (i : Nat) (ts : List Sym) (hd : ∀ d, dot = some d → d < i ∨ i + ts.length ≤ d)
    (hl : ts ≠ [] → last + 1 = i + ts.length) : loop dot last i ts = [' '].intercalate (ts.map display) := by
  induction ts generalizing i with
  | nil => simp [loop, List.intercalate]
  | cons t ts ih =>
      have h1 : dot ≠ some i := fun h => by rcases hd i h with h | h <;> simp at h <;> omega
      have h2 : last + 1 = i + (ts.length + 1) := hl (by simp)
      rw [loop, if_neg h1]
      cases ts with
      | nil =>
          simp only [List.length_nil] at h2
          rw [if_pos (by omega), List.map_cons, List.map_nil, intercalate_one]
          simp [loop]
      | cons u ts =>
          simp only [List.length_cons] at h2
          rw [if_neg (by omega), ih (i + 1) (fun d h => by rcases hd d h with h | h <;> simp at h ⊢ <;> omega) (fun _ => by simp; omega)]
          simp only [List.map_cons]
          rw [intercalate_cons_cons]
          simp

/-- The loop up to the dot. -/
theorem loop_dot (last : Nat) (i : Nat) (a b : List Sym) (hb : b ≠ []) (hl : last + 1 = i + (a ++ b).length) :
    loop (some (i + a.length)) last i (a ++ b) =
      (a.map display).flatMap (fun x => x ++ [' ']) ++ '⋅' :: [' '].intercalate (b.map display) := by
  induction a generalizing i with
  | nil =>
      cases b with
      | nil => exact absurd rfl hb
      | cons t ts =>
          simp only [List.nil_append, List.length_cons] at hl
          have := loop_plain none last i (t :: ts) (by simp) (fun _ => by simpa using hl)
          have h2 : loop none last (i + 1) ts = loop (some i) last (i + 1) ts := by
            rw [loop_plain none last (i + 1) ts (by simp) (fun _ => by omega),
              loop_plain (some i) last (i + 1) ts (fun d h => by left; cases h; omega) (fun _ => by omega)]
          rw [loop] at this
          simp only [List.nil_append, List.length_nil, Nat.add_zero, List.map_nil, List.flatMap_nil]
          rw [loop, if_pos rfl, ← h2, ← this]
          simp
  | cons t a ih =>
      simp only [List.cons_append, List.length_cons] at hl ⊢
      have hp : 0 < b.length := List.length_pos_iff.2 hb
      have hlen : (a ++ b).length = a.length + b.length := List.length_append
      rw [loop, if_neg (by simp), if_neg (by omega)]
      have := ih (i + 1) (by omega)
      rw [show i + 1 + a.length = i + (a.length + 1) by omega] at this
      rw [this]
      simp

theorem lastOf_succ (ts : List Sym) (h : ts ≠ []) : lastOf ts + 1 = ts.length := by
  have : 0 < ts.length := List.length_pos_iff.2 h
  have h2 : ts.isEmpty = false := by simpa using h
  rw [lastOf, h2]
  simp; omega

theorem production_eq (p : Production) : production p = p.name ++ arrow ++ [' '].intercalate (p.inputs.map display) := by
  rw [production, loop_plain none _ 0 _ (by simp) (fun h => by rw [lastOf_succ _ h]; simp)]

theorem item_eq {g : Grammar} {it : Item} {p : Production} (hp : g.prods[it.1]? = some p) :
    (it.2 < p.inputs.length → item g it = p.name ++ arrow ++ (((p.inputs.take it.2).map display).flatMap (fun x => x ++ [' ']) ++
        '⋅' :: [' '].intercalate ((p.inputs.drop it.2).map display))) ∧
      (it.2 = p.inputs.length → item g it = production p ++ ['⋅']) ∧
      (p.inputs.length < it.2 → item g it = production p) := by
  refine ⟨fun h => ?_, fun h => ?_, fun h => ?_⟩
  · have hne : p.inputs ≠ [] := fun h0 => by simp [h0] at h
    have hb : p.inputs.drop it.2 ≠ [] := by simpa using h
    have := loop_dot (lastOf p.inputs) 0 (p.inputs.take it.2) (p.inputs.drop it.2) hb (by rw [List.take_append_drop, lastOf_succ _ hne]; simp)
    rw [List.take_append_drop, List.length_take, Nat.min_eq_left (Nat.le_of_lt h), Nat.zero_add] at this
    rw [item, hp]
    simp only
    rw [this, if_neg (by omega)]
    simp
  · rw [item, hp]
    simp only
    rw [if_pos h, loop_plain _ _ 0 _ (fun d hd => by cases hd; right; omega) (fun h => by rw [lastOf_succ _ h]; simp), production_eq]
  · rw [item, hp]
    simp only
    rw [if_neg (by omega), loop_plain _ _ 0 _ (fun d hd => by cases hd; right; omega) (fun h => by rw [lastOf_succ _ h]; simp), production_eq]
    simp

theorem dotted_eq {ts : List Sym} {d : Nat} {w : Str} (h : Dotted ts d w) :
    (d < ts.length ∧ w = ((ts.take d).map display).flatMap (fun x => x ++ [' ']) ++ '⋅' :: [' '].intercalate ((ts.drop d).map display)) ∨
      (d = ts.length ∧ w = [' '].intercalate (ts.map display) ++ ['⋅']) := by
  rcases h with ⟨a, b, ws, u, v, rfl, rfl, hb, ha, rfl, hv, rfl⟩ | ⟨u, rfl, hu, rfl⟩
  · left
    have hp : 0 < b.length := List.length_pos_iff.2 hb
    refine ⟨by rw [List.length_append]; omega, ?_⟩
    rw [List.take_left, List.drop_left, shows_map_eq ha, (spelled_iff b v).1 hv]
  · right
    exact ⟨rfl, by rw [(spelled_iff ts u).1 hu]⟩

theorem dotted_item {g : Grammar} {it : Item} {p : Production} (hp : g.prods[it.1]? = some p) (hd : it.2 ≤ p.inputs.length) :
    ∃ w, Dotted p.inputs it.2 w ∧ item g it = p.name ++ arrow ++ w := by
  rcases Nat.lt_or_eq_of_le hd with h | h
  · refine ⟨_, Or.inl ⟨p.inputs.take it.2, p.inputs.drop it.2, _, _, _, (List.take_append_drop _ _).symm, by simp; omega, by simpa using h,
      shows_map _, rfl, (spelled_iff _ _).2 rfl, rfl⟩, (item_eq hp).1 h⟩
  · refine ⟨_, Or.inr ⟨_, h.symm, (spelled_iff _ _).2 rfl, rfl⟩, ?_⟩
    rw [(item_eq hp).2.1 h, production_eq]
    simp

/-! ## The dot can be read off -/

/-- Where the first dot is. -/
theorem split_unique {x : Char} {a b c d : Str} (ha : x ∉ a) (hc : x ∉ c) (h : a ++ x :: b = c ++ x :: d) : a = c ∧ b = d := by
  induction a generalizing c with
  | nil =>
      cases c with
      | nil => simpa using h
      | cons y c =>
          simp only [List.nil_append, List.cons_append, List.cons.injEq] at h
          exact absurd (by rw [h.1]; simp) hc
  | cons z a ih =>
      cases c with
      | nil =>
          simp only [List.nil_append, List.cons_append, List.cons.injEq] at h
          exact absurd (by rw [h.1]; simp) ha
      | cons y c =>
          simp only [List.cons_append, List.cons.injEq] at h
          have := ih (fun hh => ha (List.mem_cons_of_mem _ hh)) (fun hh => hc (List.mem_cons_of_mem _ hh)) h.2
          exact ⟨by rw [h.1, this.1], this.2⟩

theorem mem_intercalate {x : Char} {ws : List Str} (h : x ∈ [' '].intercalate ws) : x = ' ' ∨ ∃ w ∈ ws, x ∈ w := by
  induction ws with
  | nil => simp [List.intercalate] at h
  | cons a ws ih =>
      cases ws with
      | nil => rw [intercalate_one] at h; exact Or.inr ⟨a, by simp, h⟩
      | cons b ws =>
          rw [intercalate_cons_cons] at h
          simp only [List.mem_append, List.mem_cons] at h
          rcases h with h | h | h
          · exact Or.inr ⟨a, by simp, h⟩
          · exact Or.inl h
          · rcases ih h with h | ⟨w, hw, h⟩
            · exact Or.inl h
            · exact Or.inr ⟨w, List.mem_cons_of_mem _ hw, h⟩

/-- The text before the dot. -/
def front (ts : List Sym) (d : Nat) : Str :=
  if d < ts.length then ((ts.take d).map display).flatMap (fun x => x ++ [' ']) else [' '].intercalate (ts.map display)

theorem front_length_lt (ts : List Sym) {d e : Nat} (hlast : d + 1 = ts.length → ∀ t, ts.getLast? = some t → display t ≠ [])
    (hde : d < e) (he : e ≤ ts.length) : (front ts d).length < (front ts e).length := by
  induction ts generalizing d e with
  | nil => simp at he; omega
  | cons t ts ih =>
      cases ts with
      | nil =>
          simp only [List.length_cons, List.length_nil] at he
          have h0 : d = 0 := by omega
          have h1 : e = 1 := by omega
          subst h0 h1
          have := List.length_pos_iff.2 (hlast rfl t rfl)
          simpa [front, intercalate_one] using this
      | cons u ts =>
          have key : ∀ k, k ≤ (u :: ts).length → front (t :: u :: ts) (k + 1) = display t ++ ' ' :: front (u :: ts) k := by
            intro k hk
            unfold front
            by_cases h : k < (u :: ts).length
            · rw [if_pos (by simpa using h), if_pos h]
              simp
            · rw [if_neg (by simpa using h), if_neg h]
              simp only [List.map_cons]
              rw [intercalate_cons_cons]
          obtain ⟨e, rfl⟩ : ∃ e', e = e' + 1 := ⟨e - 1, by omega⟩
          rw [key e (by simpa using he)]
          cases d with
          | zero =>
              have : front (t :: u :: ts) 0 = [] := by simp [front]
              rw [this]
              simp only [List.length_append, List.length_cons, List.length_nil]
              omega
          | succ d =>
              rw [key d (by simp at he ⊢; omega)]
              have hl : d + 1 = (u :: ts).length → ∀ x, (u :: ts).getLast? = some x → display x ≠ [] := fun hd x hx =>
                hlast (by simpa using hd) x (by rw [List.getLast?_cons_cons]; exact hx)
              have := ih (d := d) (e := e) hl (by omega) (by simpa using he)
              simp only [List.length_append, List.length_cons]
              omega

theorem intercalate_snoc (ws : List Str) (w : Str) :
    [' '].intercalate (ws ++ [w]) = ws.flatMap (fun x => x ++ [' ']) ++ w := by
  induction ws with
  | nil => exact intercalate_one w
  | cons a ws ih =>
      cases ws with
      | nil =>
          rw [List.cons_append, List.nil_append, intercalate_cons_cons, intercalate_one]
          simp
      | cons b ws =>
          rw [List.cons_append] at ih
          rw [List.cons_append, List.cons_append, intercalate_cons_cons, ih]
          simp

/-- The dot before and after a last symbol that is printed as nothing. -/
theorem front_last {ts : List Sym} {t : Sym} (h : ts.getLast? = some t) (h2 : display t = []) {d : Nat} (hd : d + 1 = ts.length) :
    front ts d = front ts (d + 1) := by
  obtain ⟨a, rfl⟩ := List.getLast?_eq_some_iff.1 h
  have : d = a.length := by simpa using hd
  subst this
  rw [front, if_pos (by simp), front, if_neg (by simp), List.take_left, List.map_append, List.map_cons, List.map_nil, intercalate_snoc, h2]
  simp

theorem front_inj (ts : List Sym) {d e : Nat} (hd : d < e) (he : e ≤ ts.length) :
    front ts d = front ts e ↔ d + 1 = ts.length ∧ ∃ t, ts.getLast? = some t ∧ display t = [] := by
  constructor
  · intro h
    by_contra hc
    have := front_length_lt ts (fun h1 t ht h2 => hc ⟨h1, t, ht, h2⟩) hd he
    rw [h] at this
    omega
  · rintro ⟨h, t, ht, h2⟩
    have : e = d + 1 := by omega
    subst this
    exact front_last ht h2 h

theorem dot_not_mem_front {ts : List Sym} (hdot : ∀ t ∈ ts, '⋅' ∉ display t) (d : Nat) : '⋅' ∉ front ts d := by
  unfold front
  split
  · intro h
    simp only [List.mem_flatMap, List.mem_map, List.mem_append, List.mem_singleton] at h
    obtain ⟨w, ⟨t, ht, rfl⟩, h⟩ := h
    rcases h with h | h
    · exact hdot t (List.mem_of_mem_take ht) h
    · exact absurd h (by decide)
  · intro h
    rcases mem_intercalate h with h | ⟨w, hw, h⟩
    · exact absurd h (by decide)
    · obtain ⟨t, ht, rfl⟩ := List.mem_map.1 hw
      exact hdot t ht h

theorem item_front {g : Grammar} {it : Item} {p : Production} (hp : g.prods[it.1]? = some p) (hd : it.2 ≤ p.inputs.length) :
    item g it = p.name ++ arrow ++ (front p.inputs it.2 ++ '⋅' :: [' '].intercalate ((p.inputs.drop it.2).map display)) := by
  rcases Nat.lt_or_eq_of_le hd with h | h
  · rw [(item_eq hp).1 h, front, if_pos h]
  · rw [(item_eq hp).2.1 h, production_eq, front, if_neg (by omega), h, List.drop_length]
    simp [List.intercalate]

/-- When two dots in one production are printed alike. -/
theorem item_dots {g : Grammar} {i : Nat} {p : Production} (hp : g.prods[i]? = some p) (hdot : ∀ t ∈ p.inputs, '⋅' ∉ display t)
    {d e : Nat} (hd : d < e) (he : e ≤ p.inputs.length) :
    item g (i, d) = item g (i, e) ↔ d + 1 = p.inputs.length ∧ ∃ t, p.inputs.getLast? = some t ∧ display t = [] := by
  rw [← front_inj p.inputs hd he, item_front (it := (i, d)) hp (by simp only; omega), item_front (it := (i, e)) hp he]
  constructor
  · intro h
    exact (split_unique (dot_not_mem_front hdot d) (dot_not_mem_front hdot e) (List.append_cancel_left h)).1
  · intro h
    obtain ⟨h1, t, ht, h2⟩ := (front_inj p.inputs hd he).1 h
    have he2 : e = d + 1 := by omega
    subst he2
    rw [h]
    obtain ⟨a, ha⟩ := List.getLast?_eq_some_iff.1 ht
    have hda : d = a.length := by rw [ha] at h1; simpa using h1
    rw [ha, hda]
    have e1 : (a ++ [t]).drop (a.length + 1) = [] := by simp
    have e2 : (a ++ [t]).drop a.length = [t] := by simp
    simp only [e1, e2, List.map_cons, List.map_nil, intercalate_one, h2]
    rfl

theorem dots_shift {x : Char} {m : Str} : x :: m = m ++ [x] ↔ ∀ c ∈ m, c = x := by
  induction m with
  | nil => simp
  | cons c m ih =>
      constructor
      · intro h
        rw [List.cons_append] at h
        injection h with h1 h2
        subst h1
        intro d hd
        rcases List.mem_cons.1 hd with rfl | hd
        · rfl
        · exact ih.1 h2 d hd
      · intro h
        obtain rfl := h c (by simp)
        rw [List.cons_append, ← ih.2 fun d hd => h d (List.mem_cons_of_mem _ hd)]

theorem intercalate_append (a : List Str) {b : List Str} (hb : b ≠ []) :
    [' '].intercalate (a ++ b) = a.flatMap (fun x => x ++ [' ']) ++ [' '].intercalate b := by
  obtain ⟨b', w, rfl⟩ : ∃ b' w, b = b' ++ [w] := ⟨b.dropLast, b.getLast hb, (List.dropLast_append_getLast hb).symm⟩
  rw [← List.append_assoc, intercalate_snoc, intercalate_snoc, List.flatMap_append, List.append_assoc]

/-- The text between two places of the dot. -/
theorem front_between (ts : List Sym) {d e : Nat} (hd : d < e) (he : e ≤ ts.length) :
    ∃ m, front ts e = front ts d ++ m ∧
      [' '].intercalate ((ts.drop d).map display) = m ++ [' '].intercalate ((ts.drop e).map display) ∧
      (' ' ∈ m ∨ d + 1 = ts.length ∧ ∃ t, ts.getLast? = some t ∧ m = display t) := by
  obtain ⟨a, b, rfl, ha⟩ : ∃ a b, ts = a ++ b ∧ a.length = d := ⟨ts.take d, ts.drop d, by simp, by simp; omega⟩
  subst ha
  have hb : b ≠ [] := by rintro rfl; simp at he; omega
  have hf : front (a ++ b) a.length = (a.map display).flatMap (fun x => x ++ [' ']) := by
    rw [front, if_pos (by have := List.length_pos_iff.2 hb; simp; omega), List.take_left]
  rw [hf, List.drop_left]
  rcases Nat.lt_or_eq_of_le he with h | h
  · obtain ⟨b1, b2, rfl, hb1⟩ : ∃ b1 b2, b = b1 ++ b2 ∧ b1.length = e - a.length :=
      ⟨b.take (e - a.length), b.drop (e - a.length), by simp, by simp at h ⊢; omega⟩
    have hee : e = (a ++ b1).length := by simp; omega
    have hb2 : b2 ≠ [] := by rintro rfl; simp at h; omega
    refine ⟨(b1.map display).flatMap (fun x => x ++ [' ']), ?_, ?_, .inl ?_⟩
    · rw [front, if_pos h, ← List.append_assoc, hee, List.take_left, List.map_append, List.flatMap_append]
    · rw [← List.append_assoc, hee, List.drop_left, List.map_append, intercalate_append _ (by simpa using hb2)]
    · cases b1 with
      | nil => simp at hb1; omega
      | cons t b1 => simp
  · refine ⟨[' '].intercalate (b.map display), ?_, ?_, ?_⟩
    · rw [front, if_neg (by omega), List.map_append, intercalate_append _ (by simpa using hb)]
    · rw [h, List.drop_length]; simp [List.intercalate]
    · cases b with
      | nil => exact absurd rfl hb
      | cons t b =>
        cases b with
        | nil => exact .inr ⟨by simp, t, by simp, by rw [List.map_cons, List.map_nil, intercalate_one]⟩
        | cons u b => rw [List.map_cons, List.map_cons, intercalate_cons_cons]; exact .inl (by simp)

/-- When two dots in one production are printed alike, whatever the symbols. -/
theorem item_alike {g : Grammar} {i : Nat} {p : Production} (hp : g.prods[i]? = some p)
    {d e : Nat} (hd : d < e) (he : e ≤ p.inputs.length) :
    item g (i, d) = item g (i, e) ↔
      d + 1 = p.inputs.length ∧ ∃ t, p.inputs.getLast? = some t ∧ ∀ c ∈ display t, c = '⋅' := by
  obtain ⟨m, h1, h2, h3⟩ := front_between p.inputs hd he
  rw [item_front (it := (i, d)) hp (by simp only; omega), item_front (it := (i, e)) hp he]
  simp only
  rw [h1, h2, List.append_assoc (front _ _), List.append_right_inj, List.append_right_inj]
  have key : '⋅' :: (m ++ [' '].intercalate ((p.inputs.drop e).map display)) =
      m ++ '⋅' :: [' '].intercalate ((p.inputs.drop e).map display) ↔ ∀ c ∈ m, c = '⋅' := by
    rw [← dots_shift, ← List.cons_append, List.append_cons, List.append_left_inj]
  rw [key]
  constructor
  · intro h
    rcases h3 with h3 | ⟨h3, t, h4, rfl⟩
    · exact absurd (h _ h3) (by decide)
    · exact ⟨h3, t, h4, h⟩
  · rintro ⟨k1, t, k2, k3⟩
    rcases h3 with h3 | ⟨h3, t', h4, rfl⟩
    · exfalso
      have he' : e = p.inputs.length := by omega
      obtain ⟨a, ha⟩ := List.getLast?_eq_some_iff.1 k2
      have hda : d = a.length := by rw [ha] at k1; simpa using k1
      have e1 : p.inputs.drop e = [] := by rw [he', List.drop_length]
      have e2 : p.inputs.drop d = [t] := by rw [ha, hda]; simp
      rw [e1, e2, List.map_cons, List.map_nil, intercalate_one] at h2
      have : m = display t := by rw [h2]; simp [List.intercalate]
      exact absurd (k3 _ (this ▸ h3)) (by decide)
    · rw [k2] at h4; cases h4; exact k3

theorem intercalate_inj : ∀ {ws vs : List Str}, (∀ w ∈ ws, w ≠ [] ∧ ' ' ∉ w) → (∀ v ∈ vs, v ≠ [] ∧ ' ' ∉ v) →
    [' '].intercalate ws = [' '].intercalate vs → ws = vs
  | [], [], _, _, _ => rfl
  | [], [v], _, hv, h => absurd (by simpa [List.intercalate] using h) (hv v (by simp)).1
  | [], v :: v' :: vs, _, hv, h => by
      rw [intercalate_cons_cons] at h
      simp [List.intercalate] at h
  | [w], [], hw, _, h => absurd (by simpa [List.intercalate] using h) (hw w (by simp)).1
  | w :: w' :: ws, [], _, _, h => by
      rw [intercalate_cons_cons] at h
      simp [List.intercalate] at h
  | [w], [v], _, _, h => by rw [intercalate_one, intercalate_one] at h; rw [h]
  | [w], v :: v' :: vs, hw, _, h => by
      rw [intercalate_cons_cons, intercalate_one] at h
      exact absurd (h ▸ by simp) (hw w (by simp)).2
  | w :: w' :: ws, [v], _, hv, h => by
      rw [intercalate_cons_cons, intercalate_one] at h
      exact absurd (h ▸ by simp) (hv v (by simp)).2
  | w :: w' :: ws, v :: v' :: vs, hw, hv, h => by
      rw [intercalate_cons_cons, intercalate_cons_cons] at h
      obtain ⟨h1, h2⟩ := split_unique (hw w (by simp)).2 (hv v (by simp)).2 h
      rw [h1, intercalate_inj (fun x hx => hw x (List.mem_cons_of_mem _ hx)) (fun x hx => hv x (List.mem_cons_of_mem _ hx)) h2]

theorem front_back (ts : List Sym) {d : Nat} (hd : d ≤ ts.length) :
    front ts d ++ [' '].intercalate ((ts.drop d).map display) = [' '].intercalate (ts.map display) := by
  have hn : front ts ts.length = [' '].intercalate (ts.map display) := by rw [front, if_neg (by omega)]
  rcases Nat.lt_or_eq_of_le hd with h | rfl
  · obtain ⟨m, h1, h2, _⟩ := front_between ts h (Nat.le_refl _)
    rw [h2, ← List.append_assoc, ← h1, hn, List.drop_length]
    simp [List.intercalate]
  · rw [hn, List.drop_length]; simp [List.intercalate]

theorem front_congr {ts us : List Sym} (h : ts.map display = us.map display) (d : Nat) : front ts d = front us d := by
  have hl : ts.length = us.length := by simpa using congrArg List.length h
  unfold front
  rw [hl, List.map_take, List.map_take, h]

/-- When items of two productions are printed alike. -/
theorem item_across {g : Grammar} {i j : Nat} {p q : Production} (hp : g.prods[i]? = some p) (hq : g.prods[j]? = some q)
    (hpn : ' ' ∉ p.name) (hqn : ' ' ∉ q.name) (hps : ∀ t ∈ p.inputs, display t ≠ [] ∧ ' ' ∉ display t ∧ '⋅' ∉ display t)
    (hqs : ∀ t ∈ q.inputs, display t ≠ [] ∧ ' ' ∉ display t ∧ '⋅' ∉ display t)
    {d e : Nat} (hd : d ≤ p.inputs.length) (he : e ≤ q.inputs.length) :
    item g (i, d) = item g (j, e) ↔ p.name = q.name ∧ p.inputs.map display = q.inputs.map display ∧ d = e := by
  rw [item_front (it := (i, d)) hp hd, item_front (it := (j, e)) hq he]
  simp only
  constructor
  · intro h
    have hs : ∀ n x : Str, n ++ arrow ++ x = n ++ ' ' :: ('⇒' :: ' ' :: ' ' :: x) := fun n x => by simp [arrow]
    rw [hs, hs] at h
    obtain ⟨h1, h2⟩ := split_unique hpn hqn h
    injection h2 with _ h2; injection h2 with _ h2; injection h2 with _ h2
    obtain ⟨h3, h4⟩ := split_unique (dot_not_mem_front (fun t ht => (hps t ht).2.2) d)
      (dot_not_mem_front (fun t ht => (hqs t ht).2.2) e) h2
    have h5 : [' '].intercalate (p.inputs.map display) = [' '].intercalate (q.inputs.map display) := by
      rw [← front_back p.inputs hd, ← front_back q.inputs he, h3, h4]
    have h6 : p.inputs.map display = q.inputs.map display := by
      refine intercalate_inj (fun w hw => ?_) (fun w hw => ?_) h5
      · obtain ⟨t, ht, rfl⟩ := List.mem_map.1 hw; exact ⟨(hps t ht).1, (hps t ht).2.1⟩
      · obtain ⟨t, ht, rfl⟩ := List.mem_map.1 hw; exact ⟨(hqs t ht).1, (hqs t ht).2.1⟩
    have hl : p.inputs.length = q.inputs.length := by simpa using congrArg List.length h6
    rw [front_congr h6 d] at h3
    have hne : ∀ t, q.inputs.getLast? = some t → display t ≠ [] := fun t ht => (hqs t (List.mem_of_getLast? ht)).1
    refine ⟨h1, h6, ?_⟩
    rcases Nat.lt_trichotomy d e with k | k | k
    · have := front_length_lt q.inputs (fun _ => hne) k he
      rw [h3] at this; omega
    · exact k
    · have := front_length_lt q.inputs (fun _ => hne) k (by omega)
      rw [h3] at this; omega
  · rintro ⟨h1, h2, rfl⟩
    rw [h1, front_congr h2, List.map_drop, List.map_drop, h2]

/-! ## Lines -/

/-- Lines, each with a line break. -/
def nl (ls : List Str) : Str := ls.flatMap (fun l => l ++ ['\n'])

theorem nl_append (a b : List Str) : nl (a ++ b) = nl a ++ nl b := by simp [nl]

theorem indent_line {w : Str} (h : '\n' ∉ w) (rest : Str) :
    ∀ b, indent b (w ++ '\n' :: rest) = (if b then [' ', ' ', ' ', ' '] else []) ++ w ++ '\n' :: indent true rest := by
  induction w with
  | nil => intro b; simp [indent]
  | cons c w ih =>
      intro b
      have hc : (c == '\n') = false := by
        simp only [beq_eq_false_iff_ne, ne_eq]
        exact fun e => h (by simp [e])
      rw [List.cons_append, indent, hc, ih (fun hh => h (List.mem_cons_of_mem _ hh))]
      simp

theorem indent_nl {ls : List Str} (h : ∀ l ∈ ls, '\n' ∉ l) (rest : Str) :
    indent true (nl ls ++ rest) = nl (ls.map ([' ', ' ', ' ', ' '] ++ ·)) ++ indent true rest := by
  induction ls with
  | nil => rfl
  | cons l ls ih =>
      have := indent_line (h l (by simp)) (nl ls ++ rest) true
      have e : nl (l :: ls) ++ rest = l ++ '\n' :: (nl ls ++ rest) := by simp [nl]
      rw [e, this, ih (fun x hx => h x (List.mem_cons_of_mem _ hx))]
      simp [nl]

theorem indent_nl' {ls : List Str} (h : ∀ l ∈ ls, '\n' ∉ l) :
    indent true (nl ls) = nl (ls.map ([' ', ' ', ' ', ' '] ++ ·)) := by
  have := indent_nl h []
  simpa [indent] using this

/-- A set of texts of several lines. -/
theorem set_nl (es : List (List Str)) (h : ∀ e ∈ es, ∀ l ∈ e, '\n' ∉ l) (texts : List Str) (ht : texts.map (fun t => t ++ [',', '\n']) = es.map nl) :
    set texts ++ ['\n'] = nl (if es = [] then [['{', '}']] else [['{']] ++ es.flatMap (fun e => e.map ([' ', ' ', ' ', ' '] ++ ·)) ++ [['}']]) := by
  cases es with
  | nil =>
      have : texts = [] := by simpa using ht
      subst this
      rfl
  | cons e es =>
      have hne : texts ≠ [] := by rintro rfl; simp at ht
      have h2 : texts.isEmpty = false := by simpa using hne
      have h3 : texts.flatMap (fun e => indent true (e ++ [',', '\n'])) = nl ((e :: es).flatMap (fun e => e.map ([' ', ' ', ' ', ' '] ++ ·))) := by
        have : texts.flatMap (fun e => indent true (e ++ [',', '\n'])) = (texts.map (fun t => t ++ [',', '\n'])).flatMap (indent true) := by
          rw [List.flatMap_map]
        rw [this, ht]
        generalize (e :: es) = es at h
        clear ht this
        induction es with
        | nil => rfl
        | cons e es ih =>
            rw [List.map_cons, List.flatMap_cons, List.flatMap_cons, nl_append, indent_nl' (h e (by simp)), ih (fun x hx => h x (List.mem_cons_of_mem _ hx))]
      rw [set, h2, h3, if_neg (by simp), if_neg (by simp), nl_append, nl_append]
      simp [nl]

theorem quoted_nl (s : Str) : '\n' ∉ quoted s := by
  unfold quoted
  simp only [List.mem_append, List.mem_flatMap, not_or, not_exists, not_and]
  refine ⟨⟨by decide, fun c _ => ?_⟩, by decide⟩
  split
  · decide
  · split
    · decide
    · split
      · decide
      · rename_i h
        simp only [List.mem_singleton]
        exact fun e => h e.symm

theorem digits_nl (n : Nat) : '\n' ∉ LexGen.digits n := by
  have hd : ∀ k < 10, '\n' ≠ Char.ofNat (48 + k) := by decide
  induction n using Nat.strongRecOn with
  | ind n ih =>
      rw [LexGen.digits]
      split
      · rename_i h
        simpa using hd n h
      · rename_i h
        rw [List.mem_append, not_or]
        exact ⟨ih (n / 10) (by omega), by simpa using hd (n % 10) (by omega)⟩

theorem token_nl (g : Grammar) (t : Nat) : '\n' ∉ token g t := by
  unfold token
  split
  · rename_i s _
    cases s <;> unfold symbol
    all_goals try (simp only [List.mem_append, not_or])
    · exact ⟨⟨by decide, quoted_nl _⟩, by decide⟩
    · exact ⟨⟨by decide, quoted_nl _⟩, by decide⟩
    · exact ⟨⟨by decide, quoted_nl _⟩, by decide⟩
    · decide
    · decide
  · simp only [List.mem_append, not_or]
    exact ⟨⟨by decide, digits_nl _⟩, by decide⟩

theorem item_nl {g : Grammar} {it : Item} (h : ∀ p, g.prods[it.1]? = some p → '\n' ∉ p.name ∧ ∀ t ∈ p.inputs, '\n' ∉ display t) :
    '\n' ∉ item g it := by
  unfold item
  split
  · rename_i p hp
    obtain ⟨h1, h2⟩ := h p hp
    have hloop : ∀ (dot : Option Nat) (last i : Nat) (ts : List Sym), (∀ t ∈ ts, '\n' ∉ display t) → '\n' ∉ loop dot last i ts := by
      intro dot last i ts
      induction ts generalizing i with
      | nil => simp [loop]
      | cons t ts ih =>
          intro h
          rw [loop]
          simp only [List.mem_append, not_or]
          refine ⟨⟨⟨?_, h t (by simp)⟩, ?_⟩, ih _ (fun x hx => h x (List.mem_cons_of_mem _ hx))⟩
          · split <;> decide
          · split <;> decide
    simp only [List.mem_append, not_or]
    refine ⟨⟨⟨h1, by decide⟩, hloop _ _ _ _ h2⟩, ?_⟩
    split <;> decide
  · simp only [List.mem_append, not_or]
    exact ⟨⟨⟨⟨by decide, digits_nl _⟩, by decide⟩, digits_nl _⟩, by decide⟩

/-- The lines of an entry, not indented. -/
def flat (item : Str) (tokens : List Str) : List Str :=
  ["Item {".toList, "    item: ".toList ++ item ++ [',']] ++
    (if tokens = [] then ["    lookahead_tokens: {},".toList] else
      ["    lookahead_tokens: {".toList] ++ tokens.map (fun t => "        ".toList ++ t ++ [',']) ++ ["    },".toList]) ++
    ["},".toList]

theorem entryLines_flat (item : Str) (tokens : List Str) :
    entryLines item tokens = (flat item tokens).map ([' ', ' ', ' ', ' '] ++ ·) := by
  cases tokens with
  | nil => simp [entryLines, flat]
  | cons t ts => simp [entryLines, flat]

theorem item_line {w : Str} (h : '\n' ∉ w) :
    indent true ("item: ".toList ++ w ++ ",\n".toList) = nl ["    item: ".toList ++ w ++ [',']] := by
  have := indent_nl' (ls := ["item: ".toList ++ w ++ [',']]) (by
    simp only [List.mem_singleton, forall_eq, List.mem_append, not_or]
    exact ⟨⟨by decide, h⟩, by decide⟩)
  simpa [nl] using this

theorem flatMap_one (f : Str → Str) (ts : List Str) :
    (ts.map fun t => [f t]).flatMap (fun e => e.map ([' ', ' ', ' ', ' '] ++ ·)) = ts.map fun t => [' ', ' ', ' ', ' '] ++ f t := by
  induction ts with
  | nil => rfl
  | cons t ts ih => rw [List.map_cons, List.flatMap_cons, ih]; rfl

theorem tokens_lines {ts : List Str} (hn : ∀ t ∈ ts, '\n' ∉ t) :
    indent true ("lookahead_tokens: ".toList ++ set ts ++ ",\n".toList) =
      nl (if ts = [] then ["    lookahead_tokens: {},".toList] else
        ["    lookahead_tokens: {".toList] ++ ts.map (fun t => "        ".toList ++ t ++ [',']) ++ ["    },".toList]) := by
  have hs := set_nl (ts.map fun t => [t ++ [',']]) (by
    intro x hx l hl
    obtain ⟨t, ht, rfl⟩ := List.mem_map.1 hx
    simp only [List.mem_singleton] at hl
    subst hl
    simp only [List.mem_append, not_or]
    exact ⟨hn t ht, by decide⟩) ts (by simp [nl])
  by_cases h0 : ts = []
  · subst h0
    rfl
  · rw [if_neg (by simpa using h0), flatMap_one] at hs
    rw [if_neg h0]
    have e1 : set ts = nl ([['{']] ++ ts.map fun t => [' ', ' ', ' ', ' '] ++ (t ++ [','])) ++ ['}'] := by
      rw [nl_append] at hs
      have : nl [['}']] = ['}'] ++ ['\n'] := rfl
      rw [this, ← List.append_assoc] at hs
      exact List.append_cancel_right hs
    have e2 : "lookahead_tokens: ".toList ++ set ts ++ ",\n".toList =
        nl (["lookahead_tokens: {".toList] ++ (ts.map fun t => [' ', ' ', ' ', ' '] ++ (t ++ [','])) ++ [['}', ',']]) := by
      rw [e1, nl_append, nl_append, nl_append]
      simp [nl]
    rw [e2, indent_nl' ?_]
    · congr 1
      simp
    · intro l hl
      simp only [List.mem_append, List.mem_singleton, List.mem_map] at hl
      rcases hl with (rfl | ⟨x, hx, rfl⟩) | rfl
      · decide
      · simp only [List.mem_append, not_or]
        exact ⟨by decide, hn x hx, by decide⟩
      · decide

theorem entry_nl (g : Grammar) (e : Item × List Nat) (h : '\n' ∉ item g e.1) :
    entry g e ++ [',', '\n'] = nl (flat (item g e.1) (e.2.map (token g))) := by
  have hn : ∀ t ∈ e.2.map (token g), '\n' ∉ t := by
    intro t ht
    obtain ⟨n, _, rfl⟩ := List.mem_map.1 ht
    exact token_nl g n
  have key : ∀ (w : Str) (mid : List Str), "Item {\n".toList ++ nl ["    item: ".toList ++ w ++ [',']] ++ nl mid ++ ['}'] ++ [',', '\n'] =
      nl (["Item {".toList, "    item: ".toList ++ w ++ [',']] ++ mid ++ ["},".toList]) := by
    intro w mid
    rw [nl_append, nl_append]
    simp [nl]
  unfold entry flat
  rw [item_line h, tokens_lines hn]
  exact key _ _

theorem flat_nl {w : Str} {ts : List Str} (hw : '\n' ∉ w) (ht : ∀ t ∈ ts, '\n' ∉ t) : ∀ l ∈ flat w ts, '\n' ∉ l := by
  intro l hl
  unfold flat at hl
  simp only [List.mem_append, List.mem_cons, List.not_mem_nil, or_false] at hl
  rcases hl with ((rfl | rfl) | hl) | rfl
  · decide
  · simp only [List.mem_append, not_or]
    exact ⟨⟨by decide, hw⟩, by decide⟩
  · split at hl
    · simp only [List.mem_singleton] at hl
      subst hl; decide
    · simp only [List.mem_append, List.mem_singleton, List.mem_map] at hl
      rcases hl with (rfl | ⟨x, hx, rfl⟩) | rfl
      · decide
      · simp only [List.mem_append, not_or]
        exact ⟨⟨by decide, ht x hx⟩, by decide⟩
      · decide
  · decide

theorem itemSet_nl (g : Grammar) (s : ItemSet) (h : ∀ e ∈ s, '\n' ∉ item g e.1) :
    itemSet g s ++ ['\n'] = nl (setLines (s.map fun e => (item g e.1, e.2.map (token g)))) := by
  have := set_nl (s.map fun e => flat (item g e.1) (e.2.map (token g))) (by
    intro x hx
    obtain ⟨e, he, rfl⟩ := List.mem_map.1 hx
    refine flat_nl (h e he) (fun t ht => ?_)
    obtain ⟨n, _, rfl⟩ := List.mem_map.1 ht
    exact token_nl g n) (s.map (entry g)) (by
    rw [List.map_map, List.map_map]
    exact List.map_congr_left fun e he => entry_nl g e (h e he))
  rw [itemSet, this]
  cases s with
  | nil => rfl
  | cons e s =>
      rw [if_neg (by simp)]
      simp only [List.map_cons, setLines, List.flatMap_cons, List.flatMap_map, entryLines_flat]
      rfl

theorem digitChar_eq : ∀ n < 10, Nat.digitChar n = Char.ofNat (48 + n) := by decide

theorem digits_eq (n : Nat) : LexGen.digits n = n.repr.toList := by
  have h : LexGen.digits n = Nat.toDigits 10 n := by
    induction n using Nat.strongRecOn with
    | _ n ih =>
      rw [LexGen.digits]
      split
      · rename_i h; rw [Nat.toDigits_of_lt_base h, digitChar_eq n h]
      · rename_i h
        rw [Nat.toDigits_of_base_le (by omega) (by omega), ih (n / 10) (by omega), digitChar_eq _ (Nat.mod_lt _ (by omega))]
  rw [h]; simp [Nat.repr]

/-- What `quoted` writes for a character (src/parser/mod.rs:29-36). -/
def esc (c : Char) : Str :=
  if c = '"' then ['\\', '"'] else if c = '\\' then ['\\', '\\'] else if c = '\n' then ['\\', 'n'] else [c]

theorem esc_append {a b : Char} {s t : Str} (h : esc a ++ s = esc b ++ t) : a = b ∧ s = t := by
  unfold esc at h
  split at h <;> [skip; split at h <;> [skip; split at h]] <;> split at h <;> first
    | (split at h <;> first | (split at h <;> simp_all <;> exact absurd h.1.symm (by assumption)) | (simp_all; done))
    | (simp_all; done)

theorem escs_append : ∀ {a b : Str} {s t : Str}, a.flatMap esc ++ '"' :: s = b.flatMap esc ++ '"' :: t → a = b ∧ s = t := by
  have hq : ∀ (c : Char) (u v : Str), '"' :: u ≠ esc c ++ v := by
    intro c u v
    unfold esc
    split
    · simp
    · split
      · simp
      · split
        · simp
        · rename_i h _ _; simp [Ne.symm h]
  intro a
  induction a with
  | nil =>
    intro b s t h
    cases b with
    | nil => simpa using h
    | cons c b => exact absurd (by simpa [List.append_assoc] using h) (hq c s (b.flatMap esc ++ '"' :: t))
  | cons x a ih =>
    intro b s t h
    cases b with
    | nil => exact absurd (by simpa [List.append_assoc] using h.symm) (hq x t (a.flatMap esc ++ '"' :: s))
    | cons c b =>
      simp only [List.flatMap_cons, List.append_assoc] at h
      obtain ⟨h1, h2⟩ := esc_append h
      obtain ⟨h3, h4⟩ := ih h2
      exact ⟨by rw [h1, h3], h4⟩

theorem quoted_append {a b s t : Str} (h : quoted a ++ s = quoted b ++ t) : a = b ∧ s = t := by
  have : a.flatMap esc ++ '"' :: s = b.flatMap esc ++ '"' :: t := by
    have h' : ['"'] ++ (a.flatMap esc ++ '"' :: s) = ['"'] ++ (b.flatMap esc ++ '"' :: t) := by
      have e : ∀ x y : Str, quoted x ++ y = ['"'] ++ (x.flatMap esc ++ '"' :: y) := fun x y => by
        simp only [quoted, List.append_assoc]; rfl
      rw [← e, ← e]; exact h
    exact List.append_cancel_left h'
  exact escs_append this

theorem symbol_inj {s t : Sym} (h : symbol s = symbol t) : s = t := by
  have key : ∀ (u : Str) {a b v w : Str}, u ++ quoted a ++ v = u ++ quoted b ++ w → a = b := fun u a b v w h => by
    simp only [List.append_assoc] at h
    exact (quoted_append (List.append_cancel_left h)).1
  have hd : ∀ s : Sym, (symbol s).take 2 = match s with
      | .strLit _ => ['S', 't'] | .nonTerm _ => ['N', 'o'] | .regex _ => ['R', 'e'] | .epsilon => ['E', 'p'] | .eof => ['E', 'o'] := by
    intro s
    cases s with
    | strLit s =>
      unfold symbol
      dsimp only
      rw [List.append_assoc]
      exact (List.take_append_of_le_length (by decide)).trans (by decide)
    | nonTerm s =>
      unfold symbol
      dsimp only
      rw [List.append_assoc]
      exact (List.take_append_of_le_length (by decide)).trans (by decide)
    | regex s =>
      unfold symbol
      dsimp only
      rw [List.append_assoc]
      exact (List.take_append_of_le_length (by decide)).trans (by decide)
    | epsilon => decide
    | eof => decide
  have h2 := congrArg (List.take 2) h
  rw [hd, hd] at h2
  cases s <;> cases t <;> first
    | rfl
    | exact congrArg _ (key _ h)
    | exact absurd h2 (by simp)

end Verif.Show
