import Verif.Proofs.TsReadOk

/-! # Reading type expressions, rule by rule -/

namespace Verif.Spec.TsSyntax
open Verif MiniTs

/-- With enough fuel, `f` reads `x` from the words `ws` and leaves `r`. -/
def Rd {α : Type} (f : Nat → List Word → Option (α × List Word)) (ws : List Word) (x : α) (r : List Word) : Prop :=
  ∃ k, ∀ n, k ≤ n → f n ws = some (x, r)

theorem Rd.step {α : Type} {f : Nat → List Word → Option (α × List Word)} {ws r : List Word} {x : α}
    (h : ∃ k, ∀ n, k ≤ n → f (n + 1) ws = some (x, r)) : Rd f ws x r := by
  obtain ⟨k, h⟩ := h
  refine ⟨k + 1, fun n hn => ?_⟩
  obtain ⟨n, rfl⟩ : ∃ m, n = m + 1 := ⟨n - 1, by omega⟩
  exact h n (by omega)

/-- A type expression read on its own can be followed by words that do not continue it. -/
theorem rd_append {n : Nat} {ws s : List Word} {t : Exp} (h : TsSyntax.type n ws = some (t, [])) (hs : stops s = true) :
    Rd TsSyntax.type (ws ++ s) t s :=
  ⟨n, fun m hm => (ext n m hm).type _ _ _ _ hs h⟩

/-- No `extends` at the beginning. -/
def noExtends : List Word → Bool
  | .id w :: _ => decide (w ≠ "extends".toList)
  | _ => true

/-- No `c` at the beginning. -/
def noPunct (c : Char) : List Word → Bool
  | .punct d :: _ => decide (d ≠ c)
  | _ => true

/-- No `keyof` or `infer` at the beginning. -/
def noPrefix : List Word → Bool
  | .id w :: _ => decide (w ≠ "keyof".toList) && decide (w ≠ "infer".toList)
  | _ => true

theorem noPunct_ne {c : Char} {ws l : List Word} (h : noPunct c ws = true) : ws ≠ .punct c :: l := by
  rintro rfl
  simp [noPunct] at h

theorem rd_type {ws r : List Word} {t : Exp} (h : Rd unionType ws t r) (hr : noExtends r = true) : Rd TsSyntax.type ws t r := by
  obtain ⟨k, h⟩ := h
  refine Rd.step ⟨k, fun n hn => ?_⟩
  simp only [TsSyntax.type, h n hn, bind, Option.bind]
  cases r with
  | nil => rfl
  | cons a r =>
    cases a with
    | id w =>
      have : w ≠ "extends".toList := by simpa [noExtends] using hr
      simp only [if_neg this, pure]
    | _ => rfl

theorem rd_cond {ws ws1 ws2 ws3 r : List Word} {c e t f : Exp} (h1 : Rd unionType ws c (.id "extends".toList :: ws1))
    (h2 : Rd unionType ws1 e (.punct '?' :: ws2)) (h3 : Rd TsSyntax.type ws2 t (.punct ':' :: ws3)) (h4 : Rd TsSyntax.type ws3 f r) :
    Rd TsSyntax.type ws (.cond c e t f) r := by
  obtain ⟨k1, h1⟩ := h1
  obtain ⟨k2, h2⟩ := h2
  obtain ⟨k3, h3⟩ := h3
  obtain ⟨k4, h4⟩ := h4
  refine Rd.step ⟨k1 + k2 + k3 + k4, fun n hn => ?_⟩
  simp only [TsSyntax.type, h1 n (by omega), h2 n (by omega), h3 n (by omega), h4 n (by omega), bind, Option.bind, if_true, pure]

/-- A bar before the first type of a union is dropped. -/
def unbar : List Word → List Word
  | .punct '|' :: ws => ws
  | ws => ws

theorem unbar_none {ws : List Word} (h : noPunct '|' ws = true) : unbar ws = ws := by
  unfold unbar
  split
  · exact absurd rfl (noPunct_ne h)
  · rfl

theorem unionType_succ (n : Nat) (ws : List Word) : unionType (n + 1) ws =
    ((prefixType n (unbar ws)).bind fun q => (unionRest n q.2).bind fun q' =>
        match q'.1 with
        | .nil => some (q.1, q'.2)
        | ts => some (.union (.cons .elem q.1 ts), q'.2)) := by
  unfold unionType
  rfl

theorem rd_rest_nil {r : List Word} (hr : noPunct '|' r = true) : Rd unionRest r .nil r :=
  Rd.step ⟨0, fun n _ => by
    unfold unionRest
    split
    · exact absurd rfl (noPunct_ne hr)
    · rfl⟩

theorem rd_union1 {ws r : List Word} {t : Exp} (h : Rd prefixType ws t r) (hw : noPunct '|' ws = true) (hr : noPunct '|' r = true) :
    Rd unionType ws t r := by
  obtain ⟨k, h⟩ := h
  obtain ⟨k', h'⟩ := rd_rest_nil hr
  refine Rd.step ⟨k + k', fun n hn => ?_⟩
  rw [unionType_succ, unbar_none hw, h n (by omega)]
  simp only [Option.bind, h' n (by omega)]

theorem rd_rest_cons {ws ws1 r : List Word} {t : Exp} {ts : Exps} (h : Rd prefixType ws t ws1) (h' : Rd unionRest ws1 ts r) :
    Rd unionRest (.punct '|' :: ws) (.cons .elem t ts) r := by
  obtain ⟨k, h⟩ := h
  obtain ⟨k', h'⟩ := h'
  refine Rd.step ⟨k + k', fun n hn => ?_⟩
  simp only [unionRest, h n (by omega), h' n (by omega), bind, Option.bind, pure]

/-- A union of at least two types. -/
theorem rd_union {ws ws1 r : List Word} {t t' : Exp} {ts : Exps} (h : Rd prefixType ws t ws1) (hw : noPunct '|' ws = true)
    (h' : Rd unionRest ws1 (.cons .elem t' ts) r) : Rd unionType ws (.union (.cons .elem t (.cons .elem t' ts))) r := by
  obtain ⟨k, h⟩ := h
  obtain ⟨k', h'⟩ := h'
  refine Rd.step ⟨k + k', fun n hn => ?_⟩
  rw [unionType_succ, unbar_none hw, h n (by omega)]
  simp only [Option.bind, h' n (by omega)]

/-- A bar before the first type of a union changes nothing. -/
theorem rd_bar {ws r : List Word} {t : Exp} (h : Rd unionType ws t r) (hw : noPunct '|' ws = true) :
    Rd unionType (.punct '|' :: ws) t r := by
  obtain ⟨k, h⟩ := h
  refine Rd.step ⟨k, fun n hn => ?_⟩
  have := h (n + 1) (by omega)
  rw [unionType_succ, unbar_none hw] at this
  rw [unionType_succ]
  exact this

theorem rd_idx_nil {t : Exp} {r : List Word} (hr : noPunct '[' r = true) : Rd (fun n => indices n t) r t r :=
  Rd.step ⟨0, fun n _ => by
    show indices (n + 1) t r = _
    unfold indices
    split
    · exact absurd rfl (noPunct_ne hr)
    · exact absurd rfl (noPunct_ne hr)
    · rfl⟩

theorem rd_idx_arr {t x : Exp} {ws r : List Word} (h : Rd (fun n => indices n (.arr t)) ws x r) :
    Rd (fun n => indices n t) (.punct '[' :: .punct ']' :: ws) x r := by
  obtain ⟨k, h⟩ := h
  refine Rd.step ⟨k, fun n hn => ?_⟩
  show indices (n + 1) t _ = _
  simp only [indices]
  exact h n hn

theorem rd_idx {t i x : Exp} {ws ws1 r : List Word} (h : Rd TsSyntax.type ws i (.punct ']' :: ws1)) (hw : noPunct ']' ws = true)
    (h' : Rd (fun n => indices n (.idx t i)) ws1 x r) : Rd (fun n => indices n t) (.punct '[' :: ws) x r := by
  obtain ⟨k, h⟩ := h
  obtain ⟨k', h'⟩ := h'
  refine Rd.step ⟨k + k', fun n hn => ?_⟩
  show indices (n + 1) t _ = _
  rw [indices, h n (by omega)]
  · exact h' n (by omega)
  · intro l he
    exact absurd he (noPunct_ne hw)

theorem rd_prefix {ws ws1 r : List Word} {t x : Exp} (h : Rd primary ws t ws1) (hw : noPrefix ws = true)
    (h' : Rd (fun n => indices n t) ws1 x r) : Rd prefixType ws x r := by
  obtain ⟨k, h⟩ := h
  obtain ⟨k', h'⟩ := h'
  refine Rd.step ⟨k + k', fun n hn => ?_⟩
  have key : (primary n ws).bind (fun q => indices n q.1 q.2) = some (x, r) := by
    rw [h n (by omega)]
    exact h' n (by omega)
  cases ws with
  | nil => rw [primary_nil] at key; cases key
  | cons a ws =>
    cases a with
    | id w =>
      have : w ≠ "keyof".toList ∧ w ≠ "infer".toList := by simpa [noPrefix] using hw
      simp only [prefixType, if_neg this.1, if_neg this.2]
      exact key
    | _ => exact key

theorem rd_infer {x : Str} {r : List Word} (hr : noExtends r = true) : Rd prefixType (.id "infer".toList :: .id x :: r) (.infer x) r := by
  refine Rd.step ⟨0, fun n _ => ?_⟩
  have : "infer".toList ≠ "keyof".toList := by decide
  simp only [prefixType, if_neg this, if_true]
  cases r with
  | nil => rfl
  | cons a r =>
    cases a with
    | id w =>
      have : w ≠ "extends".toList := by simpa [noExtends] using hr
      simp only [if_neg this]
    | _ => rfl

theorem rd_inferExt {x : Str} {ws r : List Word} {c : Exp} (h : Rd unionType ws c r) :
    Rd prefixType (.id "infer".toList :: .id x :: .id "extends".toList :: ws) (.inferExt x c) r := by
  obtain ⟨k, h⟩ := h
  refine Rd.step ⟨k, fun n hn => ?_⟩
  have : "infer".toList ≠ "keyof".toList := by decide
  simp only [prefixType, if_neg this, if_true, h n hn, bind, Option.bind, pure]

theorem rd_keyof {ws r : List Word} {t : Exp} (h : Rd prefixType ws t r) : Rd prefixType (.id "keyof".toList :: ws) (.keyof t) r := by
  obtain ⟨k, h⟩ := h
  refine Rd.step ⟨k, fun n hn => ?_⟩
  simp only [prefixType, if_true, h n hn, bind, Option.bind, pure]

theorem rd_str {s : Str} {r : List Word} : Rd primary (.str s :: r) (.lit (.str s)) r :=
  Rd.step ⟨0, fun n _ => by simp only [primary]⟩

theorem rd_num {k : Nat} {r : List Word} : Rd primary (.num k :: r) (.lit (.num k)) r :=
  Rd.step ⟨0, fun n _ => by simp only [primary]⟩

theorem rd_tup {ws r : List Word} {es : Exps} (h : Rd elems ws es r) : Rd primary (.punct '[' :: ws) (.tup es) r := by
  obtain ⟨k, h⟩ := h
  refine Rd.step ⟨k, fun n hn => ?_⟩
  simp only [primary, h n hn, bind, Option.bind, pure]

theorem rd_obj {ws r : List Word} {es : Exps} (h : Rd members ws es r) : Rd primary (.punct '{' :: ws) (.obj es) r := by
  obtain ⟨k, h⟩ := h
  refine Rd.step ⟨k, fun n hn => ?_⟩
  simp only [primary, h n hn, bind, Option.bind, pure]

theorem rd_app {x : Str} {ws r : List Word} {es : Exps} (h : Rd args ws es r) : Rd primary (.id x :: .punct '<' :: ws) (apply x es) r := by
  obtain ⟨k, h⟩ := h
  refine Rd.step ⟨k, fun n hn => ?_⟩
  simp only [primary, h n hn, bind, Option.bind, pure]

theorem rd_word {x : Str} {r : List Word} (hr : noPunct '<' r = true) : Rd primary (.id x :: r) ((keyword x).getD (.ref x .nil)) r := by
  refine Rd.step ⟨0, fun n _ => ?_⟩
  rw [primary]
  intro ws he
  exact absurd he (noPunct_ne hr)

theorem rd_ref {x : Str} {r : List Word} (hx : keyword x = none) (hr : noPunct '<' r = true) : Rd primary (.id x :: r) (.ref x .nil) r := by
  have := rd_word (x := x) hr
  rwa [hx] at this

theorem rd_chunk {s : Str} {r : List Word} (hs : s ≠ []) : Rd primary (.tick :: .chunk s :: .tock :: r) (.lit (.str s)) r := by
  refine Rd.step ⟨2, fun n hn => ?_⟩
  obtain ⟨n, rfl⟩ : ∃ m, n = m + 2 := ⟨n - 2, by omega⟩
  obtain ⟨c, s, rfl⟩ := List.exists_cons_of_ne_nil hs
  simp only [primary, parts, bind, Option.bind, pure]

/-! ## Tuples, objects, arguments -/

/-- The beginning of an element that is neither spread nor named. -/
def elemStart : List Word → Bool
  | .punct c :: _ => decide (c ≠ ']') && decide (c ≠ ',') && decide (c ≠ '.')
  | .id _ :: .punct c :: _ => decide (c ≠ ':')
  | _ => true

theorem rd_elems_nil {r : List Word} : Rd elems (.punct ']' :: r) .nil r :=
  Rd.step ⟨0, fun n _ => by simp only [elems]⟩

theorem rd_elems_comma {ws r : List Word} {es : Exps} (h : Rd elems ws es r) : Rd elems (.punct ',' :: ws) es r := by
  obtain ⟨k, h⟩ := h
  refine Rd.step ⟨k, fun n hn => ?_⟩
  simp only [elems, h n hn]

theorem rd_elems_spread {ws ws1 r : List Word} {t : Exp} {ts : Exps} (h : Rd TsSyntax.type ws t ws1) (h' : Rd elems ws1 ts r) :
    Rd elems (.punct '.' :: .punct '.' :: .punct '.' :: ws) (.cons .spread t ts) r := by
  obtain ⟨k, h⟩ := h
  obtain ⟨k', h'⟩ := h'
  refine Rd.step ⟨k + k', fun n hn => ?_⟩
  simp only [elems, h n (by omega), h' n (by omega), bind, Option.bind, pure]

theorem rd_elems {ws ws1 r : List Word} {t : Exp} {ts : Exps} (h : Rd TsSyntax.type ws t ws1) (hw : elemStart ws = true)
    (h' : Rd elems ws1 ts r) : Rd elems ws (.cons .elem t ts) r := by
  obtain ⟨k, h⟩ := h
  obtain ⟨k', h'⟩ := h'
  refine Rd.step ⟨k + k', fun n hn => ?_⟩
  have key : ((TsSyntax.type n ws).bind fun q => (elems n q.2).bind fun q' => some (Exps.cons .elem q.1 q'.1, q'.2)) =
      some (.cons .elem t ts, r) := by
    rw [h n (by omega)]
    simp only [Option.bind, h' n (by omega)]
  conv => lhs; unfold elems
  split
  · simp [elemStart] at hw
  · simp [elemStart] at hw
  · simp [elemStart] at hw
  · simp [elemStart] at hw
  · exact key

theorem rd_mems_nil {r : List Word} : Rd members (.punct '}' :: r) .nil r :=
  Rd.step ⟨0, fun n _ => by simp only [members]⟩

theorem rd_mems_comma {ws r : List Word} {es : Exps} (h : Rd members ws es r) : Rd members (.punct ',' :: ws) es r := by
  obtain ⟨k, h⟩ := h
  refine Rd.step ⟨k, fun n hn => ?_⟩
  simp only [members, h n hn]

theorem rd_mems_semi {ws r : List Word} {es : Exps} (h : Rd members ws es r) : Rd members (.punct ';' :: ws) es r := by
  obtain ⟨k, h⟩ := h
  refine Rd.step ⟨k, fun n hn => ?_⟩
  simp only [members, h n hn]

theorem rd_mem_id {x : Str} {ws ws1 r : List Word} {t : Exp} {ts : Exps} (h : Rd TsSyntax.type ws t ws1) (h' : Rd members ws1 ts r) :
    Rd members (.id x :: .punct ':' :: ws) (.cons (.member (.str x) false) t ts) r := by
  obtain ⟨k, h⟩ := h
  obtain ⟨k', h'⟩ := h'
  refine Rd.step ⟨k + k', fun n hn => ?_⟩
  simp only [members, h n (by omega), h' n (by omega), bind, Option.bind, pure]

theorem rd_mem_str {x : Str} {ws ws1 r : List Word} {t : Exp} {ts : Exps} (h : Rd TsSyntax.type ws t ws1) (h' : Rd members ws1 ts r) :
    Rd members (.str x :: .punct ':' :: ws) (.cons (.member (.str x) false) t ts) r := by
  obtain ⟨k, h⟩ := h
  obtain ⟨k', h'⟩ := h'
  refine Rd.step ⟨k + k', fun n hn => ?_⟩
  simp only [members, h n (by omega), h' n (by omega), bind, Option.bind, pure]

theorem rd_mem_num {x : Nat} {ws ws1 r : List Word} {t : Exp} {ts : Exps} (h : Rd TsSyntax.type ws t ws1) (h' : Rd members ws1 ts r) :
    Rd members (.num x :: .punct ':' :: ws) (.cons (.member (.num x) false) t ts) r := by
  obtain ⟨k, h⟩ := h
  obtain ⟨k', h'⟩ := h'
  refine Rd.step ⟨k + k', fun n hn => ?_⟩
  simp only [members, h n (by omega), h' n (by omega), bind, Option.bind, pure]

theorem rd_args_nil {r : List Word} : Rd args (.punct '>' :: r) .nil r :=
  Rd.step ⟨0, fun n _ => by simp only [args]⟩

theorem rd_args_comma {ws r : List Word} {es : Exps} (h : Rd args ws es r) : Rd args (.punct ',' :: ws) es r := by
  obtain ⟨k, h⟩ := h
  refine Rd.step ⟨k, fun n hn => ?_⟩
  simp only [args, h n hn]

theorem rd_args {ws ws1 r : List Word} {t : Exp} {ts : Exps} (h : Rd TsSyntax.type ws t ws1)
    (hw : noPunct '>' ws = true) (hw' : noPunct ',' ws = true) (h' : Rd args ws1 ts r) : Rd args ws (.cons .elem t ts) r := by
  obtain ⟨k, h⟩ := h
  obtain ⟨k', h'⟩ := h'
  refine Rd.step ⟨k + k', fun n hn => ?_⟩
  have key : ((TsSyntax.type n ws).bind fun q => (args n q.2).bind fun q' => some (Exps.cons .elem q.1 q'.1, q'.2)) =
      some (.cons .elem t ts, r) := by
    rw [h n (by omega)]
    simp only [Option.bind, h' n (by omega)]
  conv => lhs; unfold args
  split
  · exact absurd rfl (noPunct_ne hw)
  · exact absurd rfl (noPunct_ne hw')
  · exact key

/-! ## Types that are a primary type without indices -/

/-- Words that end a type: neither an index, nor a bar, nor `extends`. -/
def ends (r : List Word) : Bool := noPunct '[' r && noPunct '|' r && noExtends r

theorem rd_prim {ws r : List Word} {t : Exp} (h : Rd primary ws t r) (hp : noPrefix ws = true) (hb : noPunct '|' ws = true)
    (hr : ends r = true) : Rd TsSyntax.type ws t r := by
  simp only [ends, Bool.and_eq_true] at hr
  exact rd_type (rd_union1 (rd_prefix h hp (rd_idx_nil hr.1.1)) hb hr.1.2) hr.2

theorem rd_idx_str {t x : Exp} {s : Str} {ws r : List Word} (h : Rd (fun n => indices n (.idx t (.lit (.str s)))) ws x r) :
    Rd (fun n => indices n t) (.punct '[' :: .str s :: .punct ']' :: ws) x r :=
  rd_idx (rd_prim rd_str rfl rfl rfl) rfl h

end Verif.Spec.TsSyntax
