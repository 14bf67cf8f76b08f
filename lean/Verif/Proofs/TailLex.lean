import Verif.Proofs.TailParse
import Mathlib.Tactic.Ring

/-! # The tail calls of `LexImpl` -/

namespace Verif.MiniTs
set_option linter.unusedSectionVars false
variable {U : User} {G : Gen}

theorem evTail_cond {c : Call} {env : Env} {ce e t f : Exp} {y : Str} {bs : List Ty}
    (h : evTail U c env (.cond ce e t f) = some (.tail y bs)) :
    ∃ a, ev U c env ce = some a ∧ early a (naked env ce) = none ∧
      ((∃ b, (if isPattern e then mat U c env a e else (ev U c env e).map (test U a)) = some (some b) ∧
          evTail U c (b ++ env) t = some (.tail y bs)) ∨
        ((if isPattern e then mat U c env a e else (ev U c env e).map (test U a)) = some none ∧
          evTail U c env f = some (.tail y bs))) := by
  rw [evTail] at h
  obtain ⟨a, h1, h2⟩ := Option.bind_eq_some_iff.mp h
  refine ⟨a, h1, ?_⟩
  cases he : early a (naked env ce) with
  | some r =>
    rw [he] at h2
    obtain ⟨u, _, h4⟩ := Option.map_eq_some_iff.mp h2
    cases h4
  | none =>
    rw [he] at h2
    obtain ⟨r, h3, h4⟩ := Option.bind_eq_some_iff.mp h2
    refine ⟨rfl, ?_⟩
    cases r with
    | some b => exact .inl ⟨b, h3, h4⟩
    | none => exact .inr ⟨h3, h4⟩

theorem ts_succ_some {max f : Nat} : Ts.succ max (some f) = some (f + 1) ∨ Ts.succ max (some f) = none := by
  simp only [Ts.succ, Ts.succTable]
  have key : ∀ l : List Nat, mget f (l.map fun i => (i, i + 1)) = none ∨ mget f (l.map fun i => (i, i + 1)) = some (f + 1) := by
    intro l
    induction l with
    | nil => exact .inl rfl
    | cons i l ih =>
      simp only [List.map_cons, mget]
      by_cases h : f = i
      · rw [if_pos h]
        exact .inr (by rw [h])
      · rw [if_neg h]; exact ih
  rcases key (List.range max) with h | h <;> rw [h] <;> simp

theorem ts_succ_le {max b f : Nat} (h : b ≤ f) (hs : Ts.succ max (some f) = some (f + 1)) : Ts.succ max (some b) = some (b + 1) := by
  simp only [Ts.succ, Ts.succTable] at hs ⊢
  have key : ∀ (l : List Nat) (x : Nat), mget x (l.map fun i => (i, i + 1)) = if x ∈ l then some (x + 1) else none := by
    intro l x
    induction l with
    | nil => rfl
    | cons i l ih =>
      simp only [List.map_cons, mget, ih, List.mem_cons]
      by_cases h : x = i
      · simp [h]
      · simp [h]
  simp only [key, List.mem_range] at hs ⊢
  by_cases hf : f < max
  · rw [if_pos (by omega)]
  · simp [hf] at hs

/-- The numbers up to `n`, added up. -/
def tri : Nat → Nat
  | 0 => 0
  | n + 1 => tri n + (n + 1)

theorem tri_mono : ∀ {m n : Nat}, m ≤ n → tri m ≤ tri n
  | 0, n, _ => by simp [tri]
  | m + 1, 0, h => by omega
  | m + 1, n + 1, h => by
    have := tri_mono (show m ≤ n by omega)
    simp only [tri]
    omega

/-- What `LexImpl` knows of its positions. -/
def LexInv (U : User) (b f : Option Nat) (last : Ty) : Prop :=
  ∀ f', f = some f' → ∃ b', b = some b' ∧ b' ≤ f' ∧
    (last = .undef ∨ ∃ l s, last = .tup [.num l, s] ∧ accepts U .number s = true ∧ b' ≤ l ∧ l < f')

/-- The number of tail calls that are left. -/
def lexLeft (n : Nat) : Option Nat → Option Nat → Nat
  | some b, some f => if f < n then tri (n - b - 1) + (n - f) else 0
  | _, _ => 0

/-- The parameters of `LexImpl` in scope. -/
structure LexEnv (E : Env) (inp full state toks b f cb last : Ty) : Prop where
  inp : mget (name! "inputStr") E = some inp
  full : mget (name! "fullInput") E = some full
  state : mget (name! "stateIdx") E = some state
  toks : mget (name! "tokens") E = some toks
  b : mget (name! "lexemeBegin") E = some b
  f : mget (name! "forward") E = some f
  cb : mget (name! "charBuf") E = some cb
  last : mget (name! "lastAcceptingState") E = some last

theorem lexEnv_zip (inp full state toks b f cb last : Ty) :
    LexEnv (lex.LexImpl.1.zip [inp, full, state, toks, b, f, cb, last]) inp full state toks b f cb last := by
  constructor <;> simp [lex.LexImpl, mget]

theorem LexEnv.ext {E B : Env} {inp full state toks b f cb last : Ty} (h : LexEnv E inp full state toks b f cb last) {xs : List Str}
    (hB : Names B xs) (hx : ∀ x ∈ lex.LexImpl.1, x ∉ xs) : LexEnv (B ++ E) inp full state toks b f cb last := by
  constructor
  · rw [mget_names hB (hx _ (by decide))]; exact h.inp
  · rw [mget_names hB (hx _ (by decide))]; exact h.full
  · rw [mget_names hB (hx _ (by decide))]; exact h.state
  · rw [mget_names hB (hx _ (by decide))]; exact h.toks
  · rw [mget_names hB (hx _ (by decide))]; exact h.b
  · rw [mget_names hB (hx _ (by decide))]; exact h.f
  · rw [mget_names hB (hx _ (by decide))]; exact h.cb
  · rw [mget_names hB (hx _ (by decide))]; exact h.last

/-- The value of a conditional type that does not distribute is that of a branch. -/
theorem ev_cond {c : Call} {env : Env} {ce e t f : Exp} {v : Ty} (hk : naked env ce = false) (h : ev U c env (.cond ce e t f) = some v) :
    (∃ a b, (if isPattern e then mat U c env a e else (ev U c env e).map (test U a)) = some (some b) ∧ ev U c (b ++ env) t = some v) ∨
      ev U c env f = some v := by
  rw [ev] at h
  obtain ⟨a, h1, h2⟩ := Option.bind_eq_some_iff.mp h
  rw [hk] at h2
  cases he : early a false with
  | some r =>
    rw [he] at h2
    subst h2
    cases a <;> simp [early] at he
  | none =>
    rw [he] at h2
    obtain ⟨r, h3, h4⟩ := Option.bind_eq_some_iff.mp h2
    cases r with
    | some b => exact .inl ⟨a, b, h3, h4⟩
    | none => exact .inr h4

theorem evs_elem {c : Call} {env : Env} {e : Exp} {es : Exps} {vs : List Ty} (h : evs U c env (.cons .elem e es) = some vs) :
    ∃ w ws, ev U c env e = some w ∧ evs U c env es = some ws ∧ vs = w :: ws := by
  rw [evs.eq_3] at h
  · obtain ⟨a, h1, h2⟩ := Option.bind_eq_some_iff.mp h
    obtain ⟨b, h3, h4⟩ := Option.map_eq_some_iff.mp h2
    exact ⟨a, b, h1, h3, h4.symm⟩
  · intro h; cases h

theorem evs_eight {c : Call} {env : Env} {a1 a2 a3 a4 a5 a6 a7 a8 : Exp} {vs : List Ty}
    (h : evs U c env (.cons .elem a1 (.cons .elem a2 (.cons .elem a3 (.cons .elem a4 (.cons .elem a5 (.cons .elem a6 (.cons .elem a7
      (.cons .elem a8 .nil)))))))) = some vs) :
    ∃ w1 w2 w3 w4 w5 w6 w7 w8, ev U c env a1 = some w1 ∧ ev U c env a2 = some w2 ∧ ev U c env a3 = some w3 ∧ ev U c env a4 = some w4 ∧
      ev U c env a5 = some w5 ∧ ev U c env a6 = some w6 ∧ ev U c env a7 = some w7 ∧ ev U c env a8 = some w8 ∧
      vs = [w1, w2, w3, w4, w5, w6, w7, w8] := by
  obtain ⟨w1, v1, e1, h1, rfl⟩ := evs_elem h
  obtain ⟨w2, v2, e2, h2, rfl⟩ := evs_elem h1
  obtain ⟨w3, v3, e3, h3, rfl⟩ := evs_elem h2
  obtain ⟨w4, v4, e4, h4, rfl⟩ := evs_elem h3
  obtain ⟨w5, v5, e5, h5, rfl⟩ := evs_elem h4
  obtain ⟨w6, v6, e6, h6, rfl⟩ := evs_elem h5
  obtain ⟨w7, v7, e7, h7, rfl⟩ := evs_elem h6
  obtain ⟨w8, v8, e8, h8, rfl⟩ := evs_elem h7
  simp only [evs, Option.some.injEq] at h8
  subst h8
  exact ⟨_, _, _, _, _, _, _, _, e1, e2, e3, e4, e5, e6, e7, e8, rfl⟩

theorem evTail_app {c : Call} {env : Env} {x y : Str} {hd : Head} {e : Exp} {es : Exps} {bs : List Ty}
    (h : evTail U c env (.ref x (.cons hd e es)) = some (.tail y bs)) : y = x ∧ evs U c env (.cons hd e es) = some bs := by
  rw [evTail] at h
  obtain ⟨vs, h1, h2⟩ := Option.map_eq_some_iff.mp h
  cases h2
  exact ⟨rfl, h1⟩

theorem succ_lim (n : Option Nat) : lim U (prog G) .lex (name! "U.Succ") [num? n] = some (num? (Ts.succ G.max n)) := by
  rw [lex_succ, succ_eq]

theorem lexImpl_tail {full : List Ty} {inp s toks cb last : Ty} {b f : Option Nat} (hI : LexInv U b f last) {y : Str} {cs : List Ty}
    {E : Env} (hE : LexEnv E inp (.tup full) s toks (num? b) (num? f) cb last)
    (h : evTail U (lim U (prog G) .lex) E lex.LexImpl.2 = some (.tail y cs)) :
    y = name! "LexImpl" ∧ ∃ s' toks' b' f' last', cs = [inp, .tup full, s', toks', num? b', num? f', cb, last'] ∧ LexInv U b' f' last' ∧
      lexLeft full.length b' f' < lexLeft full.length b f := by
  have hnil : ∀ {w t : Ty} {e : Env}, test U w t = some e → e = [] := by
    intro w t e h; unfold test at h; split at h <;> simp_all
  unfold lex.LexImpl at h
  obtain ⟨a, h1, h2, h3⟩ := evTail_cond h
  simp only [ev, hE.full, hE.f, Option.bind_some] at h1
  obtain ⟨B, h4, h5⟩ | ⟨_, h5⟩ := h3
  swap
  · simp [evTail] at h5
  -- there is a character
  obtain ⟨f, rfl⟩ : ∃ f', f = some f' := by
    cases f with
    | some f => exact ⟨f, rfl⟩
    | none =>
      simp only [num?, access, Option.some.injEq] at h1
      subst h1
      simp [isPattern, mat, matchTmpl] at h4
  simp only [num?, access, Option.some.injEq] at h1
  have hf : f < full.length := by
    by_contra hf
    rw [List.getElem?_eq_none (by omega)] at h1
    subst h1
    simp [isPattern, mat, matchTmpl] at h4
  have hE1 := hE.ext (pat_names _ _ _ _ h4) (by decide)
  generalize B ++ E = E1 at h5 hE1
  clear hE h4 h1 h
  obtain ⟨a, _, _, h3⟩ := evTail_cond h5
  obtain ⟨B, h4, h6⟩ | ⟨_, h6⟩ := h3
  swap
  · rw [evTail] at h6
    obtain ⟨_, _, h7⟩ := Option.map_eq_some_iff.mp h6
    cases h7
  have hE2 := hE1.ext (pat_names _ _ _ _ h4) (by decide)
  generalize B ++ E1 = E2 at h6 hE2
  clear hE1 h4 h5
  obtain ⟨a, _, _, h3⟩ := evTail_cond h6
  obtain ⟨B, h4, h7⟩ | ⟨_, h7⟩ := h3
  swap
  · simp [evTail] at h7
  have hE3 := hE2.ext (pat_names _ _ _ _ h4) (by decide)
  generalize B ++ E2 = E3 at h7 hE3
  clear hE2 h4 h6
  obtain ⟨n, hn, hne, h3⟩ := evTail_cond h7
  obtain ⟨b, rfl, hbf, hl⟩ := hI f rfl
  obtain ⟨B, h4, h8⟩ | ⟨_, h8⟩ := h3
  · -- a matching edge
    simp only [isPattern, Bool.false_eq_true, if_false, ev.eq_1, Option.map_some, Option.some.injEq] at h4
    have hacc : accepts U .number n = true := by unfold test at h4; split at h4 <;> simp_all
    rw [hnil h4, List.nil_append] at h8
    obtain ⟨rfl, h9⟩ := evTail_app h8
    refine ⟨rfl, ?_⟩
    obtain ⟨w1, w2, w3, w4, w5, w6, w7, w8, e1, e2, e3, e4, e5, e6, e7, e8, rfl⟩ := evs_eight h9
    simp only [ev, hE3.inp, Option.some.injEq] at e1
    simp only [ev, hE3.full, Option.some.injEq] at e2
    simp only [ev, hE3.b, Option.some.injEq] at e5
    simp only [ev, evs, hE3.f, Option.bind_some, Option.map_some, succ_lim, Option.some.injEq] at e6
    simp only [ev, hE3.cb, Option.some.injEq] at e7
    have hlast : w8 = last ∨ w8 = .tup [.num f, n] := by
      rcases ev_cond rfl e8 with ⟨a, B, hB, hw⟩ | hw
      · simp only [isPattern, Bool.false_eq_true, if_false, ev.eq_1, Option.map_some, Option.some.injEq] at hB
        rw [hnil hB, List.nil_append] at hw
        rw [ev] at hw
        obtain ⟨vs, hvs, rfl⟩ := Option.map_eq_some_iff.mp hw
        obtain ⟨u1, us, q1, hv1, rfl⟩ := evs_elem hvs
        obtain ⟨u2, us', q2, hv2, rfl⟩ := evs_elem hv1
        simp only [evs, Option.some.injEq] at hv2
        subst hv2
        simp only [ev, hE3.f, Option.some.injEq] at q1
        rw [hn] at q2
        rw [← q1, Option.some.inj q2]
        exact .inr rfl
      · simp only [ev, hE3.last, Option.some.injEq] at hw
        exact .inl hw.symm
    subst e1 e2 e5 e6 e7
    refine ⟨w3, w4, some b, Ts.succ G.max (some f), w8, rfl, ?_, ?_⟩
    · intro f' hf'
      rcases ts_succ_some (max := G.max) (f := f) with hs | hs <;> rw [hs] at hf' <;> cases hf'
      refine ⟨b, rfl, by omega, ?_⟩
      rcases hlast with rfl | rfl
      · rcases hl with rfl | ⟨l, s', rfl, h1, h2, h3⟩
        · exact .inl rfl
        · exact .inr ⟨l, s', rfl, h1, h2, by omega⟩
      · exact .inr ⟨f, n, rfl, hacc, hbf, by omega⟩
    · rcases ts_succ_some (max := G.max) (f := f) with hs | hs <;> rw [hs] <;> simp only [lexLeft, if_pos hf]
      · split <;> omega
      · omega
  obtain ⟨v, hv, _, h3⟩ := evTail_cond h8
  simp only [ev, hE3.last, Option.some.injEq] at hv
  subst hv
  obtain ⟨B, h4, h9⟩ | ⟨h4, h9⟩ := h3
  · -- back to the last accepting state
    obtain rfl | ⟨l, s', rfl, h1, h2, h3⟩ := hl
    · simp [isPattern, mat] at h4
    have hE4 := hE3.ext (pat_names _ _ _ _ h4) (by decide)
    generalize B ++ E3 = E4 at h9 hE4
    clear hE3 h4 h8 h7 hn
    obtain ⟨_, _, _, h5⟩ := evTail_cond h9
    obtain ⟨B, h4, h6⟩ | ⟨_, h6⟩ := h5
    swap
    · simp [evTail] at h6
    have hE5 := hE4.ext (pat_names _ _ _ _ h4) (by decide)
    generalize B ++ E4 = E5 at h6 hE5
    obtain ⟨rfl, g⟩ := evTail_app h6
    refine ⟨rfl, ?_⟩
    obtain ⟨w1, w2, w3, w4, w5, w6, w7, w8, e1, e2, e3, e4, e5, e6, e7, e8, rfl⟩ := evs_eight g
    have hsl := succ_lim (U := U) (G := G) (some l)
    simp only [num?] at hsl
    simp only [ev, hE5.inp, Option.some.injEq] at e1
    simp only [ev, hE5.full, Option.some.injEq] at e2
    simp only [ev, evs, hE5.last, Option.bind_some, access, List.getElem?_cons_zero, Option.getD_some, Option.map_some, hsl,
      Option.some.injEq] at e5 e6
    simp only [ev, hE5.cb, Option.some.injEq] at e7
    simp only [ev, Option.some.injEq] at e8
    subst e1 e2 e5 e6 e7 e8
    refine ⟨w3, w4, Ts.succ G.max (some l), Ts.succ G.max (some l), .undef, rfl, ?_, ?_⟩
    · intro f' hf'
      exact ⟨f', hf', Nat.le_refl _, .inl rfl⟩
    · rcases ts_succ_some (max := G.max) (f := l) with hs | hs <;> rw [hs] <;> simp only [lexLeft, if_pos hf]
      · split
        · obtain ⟨m, hm⟩ : ∃ m, full.length = l + m + 2 := ⟨full.length - l - 2, by omega⟩
          have ht := tri_mono (show m + 1 ≤ full.length - b - 1 by omega)
          rw [show full.length - (l + 1) - 1 = m by omega]
          simp only [tri] at ht
          omega
        · omega
      · omega
  · -- a blank
    obtain rfl | ⟨l, s', rfl, h1, h2, h3⟩ := hl
    swap
    · exfalso
      simp only [isPattern, if_true, mat, matTup, Bool.false_eq_true, if_false, ev.eq_1, Option.map_some, test, h1] at h4
      simp [accepts, lift] at h4
    obtain ⟨_, _, _, h5⟩ := evTail_cond h9
    obtain ⟨B, h4, h6⟩ | ⟨_, h6⟩ := h5
    swap
    · rw [evTail] at h6
      obtain ⟨_, _, h7⟩ := Option.map_eq_some_iff.mp h6
      cases h7
    have hE5 := hE3.ext (pat_names _ _ _ _ h4) (by decide)
    generalize B ++ E3 = E5 at h6 hE5
    obtain ⟨rfl, g⟩ := evTail_app h6
    refine ⟨rfl, ?_⟩
    obtain ⟨w1, w2, w3, w4, w5, w6, w7, w8, e1, e2, e3, e4, e5, e6, e7, e8, rfl⟩ := evs_eight g
    simp only [ev, hE5.inp, Option.some.injEq] at e1
    simp only [ev, hE5.full, Option.some.injEq] at e2
    simp only [ev, evs, hE5.b, Option.bind_some, Option.map_some, succ_lim, Option.some.injEq] at e5
    simp only [ev, evs, hE5.f, Option.bind_some, Option.map_some, succ_lim, Option.some.injEq] at e6
    simp only [ev, hE5.cb, Option.some.injEq] at e7
    simp only [ev, hE5.last, Option.some.injEq] at e8
    subst e1 e2 e5 e6 e7 e8
    refine ⟨w3, w4, Ts.succ G.max (some b), Ts.succ G.max (some f), .undef, rfl, ?_, ?_⟩
    · intro f' hf'
      have hsb : Ts.succ G.max (some b) = some (b + 1) := by
        rcases ts_succ_some (max := G.max) (f := f) with hs | hs <;> rw [hs] at hf' <;> cases hf'
        exact ts_succ_le hbf hs
      rcases ts_succ_some (max := G.max) (f := f) with hs | hs <;> rw [hs] at hf' <;> cases hf'
      exact ⟨b + 1, hsb, by omega, .inl rfl⟩
    · simp only [lexLeft, if_pos hf]
      rcases ts_succ_some (max := G.max) (f := b) with hb' | hb' <;>
        rcases ts_succ_some (max := G.max) (f := f) with hs | hs <;> rw [hb', hs] <;> simp only
      · split
        · have := tri_mono (show full.length - (b + 1) - 1 ≤ full.length - b - 1 by omega)
          omega
        · omega
      · omega
      · omega
      · omega

/-- There are no more tail calls of `LexImpl` than are left. -/
theorem lexImpl_after {inner : Mod → Call} (hb : Below U (prog G) inner) : ∀ (k : Nat) {full : List Ty} {inp s toks cb last : Ty}
    {b f : Option Nat}, LexInv U b f last → lexLeft full.length b f ≤ k →
    after U (prog G) inner (k + 1) .lex (name! "LexImpl") [inp, .tup full, s, toks, num? b, num? f, cb, last] = none := by
  intro k
  induction k with
  | zero =>
    intro full inp s toks cb last b f hI hk
    obtain h1 | ⟨hlen, z, cs, h1, h3⟩ := after_cases (U := U) (P := prog G) (inner := inner) (m := .lex) (m' := .lex)
      (x := name! "LexImpl") (as := [inp, .tup full, s, toks, num? b, num? f, cb, last]) lex.LexImpl rfl
    · exact h1 0
    · obtain ⟨_, _, _, _, _, _, _, _, h4⟩ := lexImpl_tail hI (lexEnv_zip ..) (evTail_mono (hb .lex) _ _ _ h1)
      omega
  | succ k ih =>
    intro full inp s toks cb last b f hI hk
    obtain h1 | ⟨hlen, z, cs, h1, h3⟩ := after_cases (U := U) (P := prog G) (inner := inner) (m := .lex) (m' := .lex)
      (x := name! "LexImpl") (as := [inp, .tup full, s, toks, num? b, num? f, cb, last]) lex.LexImpl rfl
    · exact h1 _
    · obtain ⟨rfl, s', toks', b', f', last', rfl, hI', h4⟩ := lexImpl_tail hI (lexEnv_zip ..) (evTail_mono (hb .lex) _ _ _ h1)
      rw [h3]
      exact ih hI' (by omega)

theorem tri_eq : ∀ n : Nat, tri n = n * (n + 1) / 2
  | 0 => rfl
  | n + 1 => by
    have h : 2 * tri n = n * (n + 1) := by
      induction n with
      | zero => rfl
      | succ n ih => simp only [tri, Nat.mul_add, ih]; ring
    have : (n + 1) * (n + 1 + 1) = 2 * tri (n + 1) := by simp only [tri, Nat.mul_add, h]; ring
    rw [this]
    omega

/-- From the start. -/
theorem lexStart_after {inner : Mod → Call} (hb : Below U (prog G) inner) (full : List Ty) (inp s toks cb : Ty) :
    after U (prog G) inner (full.length * (full.length + 1) / 2 + 1) .lex (name! "LexImpl")
      [inp, .tup full, s, toks, .num 0, .num 0, cb, .undef] = none := by
  refine lexImpl_after hb _ (b := some 0) (f := some 0) ?_ ?_
  · intro f' hf'
    cases hf'
    exact ⟨0, rfl, Nat.le_refl _, .inl rfl⟩
  · rw [← tri_eq, lexLeft]
    split
    · obtain ⟨m, hm⟩ : ∃ m, full.length = m + 1 := ⟨full.length - 1, by omega⟩
      rw [hm]
      simp only [tri, Nat.add_sub_cancel, Nat.sub_zero]
      omega
    · omega

end Verif.MiniTs
