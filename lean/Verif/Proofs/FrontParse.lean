import Verif.Proofs.FrontCut

/-! # The parser of grammar files -/

namespace Verif.FrontEnd
open Verif.Spec

/-- The text of a token is one the terminal matches. -/
def TokOk : Tok → Prop
  | .quoted s => Matches GrammarFile.quoted s
  | .code s => Matches GrammarFile.tsCode s
  | .ident s => IdentName s
  | _ => True

theorem longest_ok {i : Nat} {w rest : Str} {mk : Str → Tok} {h : Hir} (hl : Longest i w rest)
    (ht : terminals[i]? = some (mk, h)) : TokOk (mk w) := by
  obtain ⟨t, ht', hm⟩ := hl.hit
  rw [ht] at ht'
  cases ht'
  match i, ht, hl with
  | 0, ht, _ => cases ht; exact hm
  | 1, ht, _ => cases ht; exact hm
  | 2, ht, hl =>
    cases ht
    refine ⟨hm, fun e => ?_, fun e => ?_, fun e => ?_⟩
    · exact hl.best 11 _ (by decide) rfl (literal_iff.mpr e)
    · exact hl.best 13 _ (by decide) rfl (literal_iff.mpr e)
    · exact hl.best 12 _ (by decide) rfl (literal_iff.mpr e)
  | 3, ht, _ | 4, ht, _ | 5, ht, _ | 6, ht, _ | 7, ht, _ | 8, ht, _ | 9, ht, _ | 10, ht, _ | 11, ht, _ | 12, ht, _
  | 13, ht, _ => cases ht; trivial
  | _ + 14, ht, _ => cases ht

theorem cut_ok {text : Str} {ts : List Tok} (h : Cut text ts) : ∀ t ∈ ts, TokOk t := by
  induction h with
  | nil => simp
  | space _ _ ih => exact ih
  | token hl ht _ ih =>
    intro t h
    rcases List.mem_cons.mp h with rfl | h
    · exact longest_ok hl ht
    · exact ih t h

/-! ## Stripping the delimiters -/

theorem strip {α : Type} (a b : α) (t : List α) :
    ((a :: (t ++ [b])).drop 1).take ((a :: (t ++ [b])).length - 2) = t := by
  simp

theorem allocQuoted (t : Str) : Support.allocQuotedStr ('"' :: (t ++ ['"'])) = .ok t := by
  unfold Support.allocQuotedStr
  rw [if_neg (by simp), strip]

theorem allocCode (t : Str) : Support.allocTsCode ('(' :: (t ++ [')'])) = .ok t := by
  unfold Support.allocTsCode
  rw [if_neg (by simp), strip]

theorem allocRegex (t : Str) : Support.allocRegex ('"' :: (t ++ ['"'])) = .ok t := by
  unfold Support.allocRegex
  cases t with
  | nil => rw [if_pos (by decide)]
  | cons c t =>
    have h1 : 1 ≤ ('"').utf8Size := Char.utf8Size_pos _
    have h2 : 1 ≤ c.utf8Size := Char.utf8Size_pos _
    rw [if_neg (by simp; omega), if_neg (by simp), strip]

/-! ## What the parser accepts -/

theorem symbol_complete {ts : List Tok} {s : Ast.InSym} (h : IsSymbol ts s) (r : List Tok) :
    symbol (ts ++ r) = .ok (s, r) := by
  cases h with
  | lit => rw [List.singleton_append, symbol, allocQuoted]; rfl
  | regex => rw [List.cons_append, List.singleton_append, symbol, allocRegex]; rfl
  | nonTerm => rfl

theorem isSymbol_starts {ts : List Tok} {s : Ast.InSym} (h : IsSymbol ts s) (r : List Tok) :
    startsSymbol (ts ++ r) = true ∧ 0 < ts.length := by
  cases h <;> exact ⟨rfl, by simp⟩

theorem named_complete {ts : List Tok} {s : Ast.InSym} (h : IsNamed ts s) (r : List Tok) :
    namedSymbol (ts ++ r) = .ok (s, r) := by
  cases h with
  | named h =>
    rename_i n ts s
    have := symbol_complete h (.gt :: r)
    simp only [List.cons_append, List.append_assoc, List.nil_append, namedSymbol]
    rw [this]
    rfl
  | plain h =>
    have := symbol_complete h r
    cases h with
    | lit => exact this
    | regex => exact this
    | nonTerm => exact this

theorem isNamed_starts {ts : List Tok} {s : Ast.InSym} (h : IsNamed ts s) (r : List Tok) :
    startsSymbol (ts ++ r) = true ∧ 0 < ts.length := by
  cases h with
  | named h => exact ⟨rfl, by simp⟩
  | plain h => exact isSymbol_starts h r

theorem areNamed_starts {ts : List Tok} {ss : List Ast.InSym} (h : AreNamed ts ss) (r : List Tok) :
    startsSymbol (ts ++ r) = true ∧ 0 < ts.length := by
  cases h with
  | one h => exact isNamed_starts h r
  | cons h _ =>
    rw [List.append_assoc]
    exact ⟨(isNamed_starts h _).1, by simp; have := (isNamed_starts h []).2; omega⟩

theorem namedSymbols_complete {ts : List Tok} {ss : List Ast.InSym} (h : AreNamed ts ss) :
    ∀ {fuel : Nat} {r : List Tok}, ts.length ≤ fuel → startsSymbol r = false →
      namedSymbols fuel (ts ++ r) = .ok (ss, r) := by
  induction h with
  | @one ts s h =>
    intro fuel r hf hr
    have := (isNamed_starts h []).2
    match fuel, hf with
    | 0, hf => omega
    | fuel + 1, _ =>
      rw [namedSymbols, named_complete h r]
      simp [bind, Except.bind, hr, pure, Except.pure]
  | @cons ts ts' s ss h h' ih =>
    intro fuel r hf hr
    have := (isNamed_starts h []).2
    rw [List.length_append] at hf
    match fuel, hf with
    | 0, hf => omega
    | fuel + 1, hf =>
      rw [List.append_assoc, namedSymbols, named_complete h]
      simp [bind, Except.bind, (areNamed_starts h' r).1, ih (fuel := fuel) (by omega) hr, pure, Except.pure]

theorem body_complete {ts : List Tok} {b : Ast.Body} (h : IsBody ts b) {fuel : Nat} (hf : ts.length ≤ fuel)
    (r : List Tok) : body fuel (ts ++ r) = .ok (b, r) := by
  cases h with
  | mk h =>
    rename_i ts ss c
    rw [List.length_append] at hf
    have := namedSymbols_complete h (fuel := fuel) (r := .arrow :: .code ('(' :: (c ++ [')'])) :: r) (by omega) rfl
    rw [List.append_assoc]
    show body fuel (ts ++ .arrow :: .code ('(' :: (c ++ [')'])) :: r) = _
    rw [body, this]
    simp only [bind, Except.bind, allocCode]
    rfl

theorem isBody_head {ts : List Tok} {b : Ast.Body} (h : IsBody ts b) (r : List Tok) :
    startsSymbol (ts ++ r) = true := by
  cases h with
  | mk h => rw [List.append_assoc]; exact (areNamed_starts h _).1

theorem bodies_step {fuel : Nat} {ts : List Tok} (h : startsSymbol ts = true) :
    bodies (fuel + 1) ts = (do
      let (b, r) ← body fuel ts
      match r with
      | .comma :: r => do
        let (bs, r) ← bodies fuel r
        return (b :: bs, r)
      | .rbrack :: r => return ([b], r)
      | _ => .error .syntaxError) := by
  cases ts with
  | nil => cases h
  | cons t ts => cases t <;> first | cases h; done | rfl

theorem bodies_complete {ts : List Tok} {bs : List Ast.Body} (h : AreBodies ts bs) :
    ∀ {fuel : Nat} (r : List Tok), ts.length + 1 ≤ fuel → bodies fuel (ts ++ .rbrack :: r) = .ok (bs, r) := by
  induction h with
  | nil =>
    intro fuel r hf
    match fuel, hf with
    | fuel + 1, _ => rfl
  | last h =>
    intro fuel r hf
    match fuel, hf with
    | fuel + 1, hf =>
      rw [bodies_step (isBody_head h _), body_complete h (by omega)]
      rfl
  | cons h _ ih =>
    intro fuel r hf
    match fuel, hf with
    | fuel + 1, hf =>
      simp only [List.length_append, List.length_cons] at hf
      rw [List.append_assoc, bodies_step (isBody_head h _), body_complete h (by omega)]
      simp only [List.cons_append, bind, Except.bind]
      rw [ih r (by omega)]
      rfl

theorem production_complete {n c : Str} {ts : List Tok} {bs : List Ast.Body} (h : AreBodies ts bs) {fuel : Nat}
    (hf : ts.length + 1 ≤ fuel) (isStart : Bool) (r : List Tok) :
    production fuel isStart (.ident n :: .colon :: .code ('(' :: (c ++ [')'])) :: .eq :: .lbrack :: (ts ++ .rbrack :: r)) =
      .ok (⟨n, bs, isStart, c⟩, r) := by
  rw [production, allocCode]
  simp only [bind, Except.bind]
  rw [bodies_complete h r hf]
  rfl

theorem exported_complete {ts : List Tok} {p : Ast.Prod} (h : IsProd ts p) {fuel : Nat} (hf : ts.length ≤ fuel)
    (r : List Tok) : exported fuel (ts ++ r) = .ok (p, r) := by
  cases h <;> rename_i n c ts bs h <;> simp only [List.length_append, List.length_cons, List.length_nil] at hf <;>
    simp only [List.cons_append, List.append_assoc, List.nil_append, exported] <;>
    exact production_complete h (by omega) _ r

theorem isProd_length {ts : List Tok} {p : Ast.Prod} (h : IsProd ts p) : 0 < ts.length := by
  cases h <;> simp

theorem program_ne {ts : List Tok} {ps : List Ast.Prod} (h : IsProgram ts ps) : ts ≠ [] := by
  cases h with
  | one h => have := isProd_length h; rintro rfl; simp at this
  | cons h _ => have := isProd_length h; intro e; simp at e; rw [e.1] at this; simp at this

theorem program_complete {ts : List Tok} {ps : List Ast.Prod} (h : IsProgram ts ps) :
    ∀ {fuel : Nat}, ts.length + 1 ≤ fuel → program fuel ts = .ok ps := by
  induction h with
  | one h =>
    intro fuel hf
    match fuel, hf with
    | fuel + 1, hf =>
      have := exported_complete h (fuel := fuel) (by omega) []
      rw [List.append_nil] at this
      rw [program, this]
      rfl
  | cons h h' ih =>
    intro fuel hf
    match fuel, hf with
    | fuel + 1, hf =>
      rw [List.length_append] at hf
      rw [program, exported_complete h (by omega)]
      have hl := isProd_length h
      have := program_ne h'
      simp [bind, Except.bind, this, ih (fuel := fuel) (by omega), pure, Except.pure]

/-! ## What the parser returns -/

theorem bind_ok {α β : Type} {x : Res α} {f : α → Res β} {b : β} (h : (x >>= f) = .ok b) :
    ∃ a, x = .ok a ∧ f a = .ok b := by
  cases x with
  | error e => cases h
  | ok a => exact ⟨a, rfl, h⟩

theorem bind_error {α β : Type} {x : Res α} {f : α → Res β} {e : Err} (h : (x >>= f) = .error e) :
    x = .error e ∨ ∃ a, x = .ok a ∧ f a = .error e := by
  cases x with
  | error e' => cases h; exact .inl rfl
  | ok a => exact .inr ⟨a, rfl, h⟩

theorem symbol_sound {ts : List Tok} {s : Ast.InSym} {r : List Tok} (hok : ∀ t ∈ ts, TokOk t)
    (h : symbol ts = .ok (s, r)) : ∃ pre, ts = pre ++ r ∧ IsSymbol pre s := by
  unfold symbol at h
  split at h
  · rename_i q r'
    obtain ⟨t, _, rfl⟩ := quoted_iff.mp (show Matches GrammarFile.quoted q from hok (.quoted q) (by simp))
    rw [allocQuoted] at h
    cases h
    exact ⟨[_], rfl, .lit⟩
  · rename_i q r'
    obtain ⟨t, _, rfl⟩ := quoted_iff.mp (show Matches GrammarFile.quoted q from hok (.quoted q) (by simp))
    rw [allocRegex] at h
    cases h
    exact ⟨[_, _], rfl, .regex⟩
  · cases h
    exact ⟨[_], rfl, .nonTerm⟩
  · cases h

theorem symbol_error {ts : List Tok} {e : Err} (hok : ∀ t ∈ ts, TokOk t) (h : symbol ts = .error e) :
    e = .syntaxError := by
  unfold symbol at h
  split at h
  · rename_i q r'
    obtain ⟨t, _, rfl⟩ := quoted_iff.mp (show Matches GrammarFile.quoted q from hok (.quoted q) (by simp))
    rw [allocQuoted] at h
    cases h
  · rename_i q r'
    obtain ⟨t, _, rfl⟩ := quoted_iff.mp (show Matches GrammarFile.quoted q from hok (.quoted q) (by simp))
    rw [allocRegex] at h
    cases h
  · cases h
  · cases h; rfl

theorem named_sound {ts : List Tok} {s : Ast.InSym} {r : List Tok} (hok : ∀ t ∈ ts, TokOk t)
    (h : namedSymbol ts = .ok (s, r)) : ∃ pre, ts = pre ++ r ∧ IsNamed pre s := by
  unfold namedSymbol at h
  split at h
  · rename_i n r'
    obtain ⟨⟨ty, r''⟩, h1, h2⟩ := bind_ok h
    obtain ⟨pre, rfl, hp⟩ := symbol_sound (fun t ht => hok t (by simp [ht])) h1
    simp only at h2
    split at h2
    · cases h2
      exact ⟨.lt :: .ident n :: .colon :: (pre ++ [.gt]), by simp, .named hp⟩
    · cases h2
  · obtain ⟨pre, rfl, hp⟩ := symbol_sound hok h
    exact ⟨pre, rfl, .plain hp⟩

theorem named_error {ts : List Tok} {e : Err} (hok : ∀ t ∈ ts, TokOk t) (h : namedSymbol ts = .error e) :
    e = .syntaxError := by
  unfold namedSymbol at h
  split at h
  · rename_i n r'
    rcases bind_error h with h | ⟨⟨ty, r''⟩, h1, h2⟩
    · exact symbol_error (fun t ht => hok t (by simp [ht])) h
    · simp only at h2
      split at h2
      · cases h2
      · cases h2; rfl
  · exact symbol_error hok h

theorem namedSymbols_sound : ∀ {fuel : Nat} {ts : List Tok} {ss : List Ast.InSym} {r : List Tok},
    (∀ t ∈ ts, TokOk t) → namedSymbols fuel ts = .ok (ss, r) → ∃ pre, ts = pre ++ r ∧ AreNamed pre ss
  | 0, _, _, _, _, h => by cases h
  | fuel + 1, ts, ss, r, hok, h => by
    rw [namedSymbols] at h
    obtain ⟨⟨s, r'⟩, h1, h2⟩ := bind_ok h
    obtain ⟨pre, rfl, hp⟩ := named_sound hok h1
    simp only at h2
    split at h2
    · obtain ⟨⟨ss', r''⟩, h3, h4⟩ := bind_ok h2
      obtain ⟨pre', rfl, hp'⟩ := namedSymbols_sound (fun t ht => hok t (by simp [ht])) h3
      cases h4
      exact ⟨pre ++ pre', by simp, .cons hp hp'⟩
    · cases h2
      exact ⟨pre, rfl, .one hp⟩

theorem namedSymbols_error : ∀ {fuel : Nat} {ts : List Tok} {e : Err},
    (∀ t ∈ ts, TokOk t) → ts.length + 1 ≤ fuel → namedSymbols fuel ts = .error e → e = .syntaxError
  | 0, _, _, _, hf, _ => by omega
  | fuel + 1, ts, e, hok, hf, h => by
    rw [namedSymbols] at h
    rcases bind_error h with h | ⟨⟨s, r'⟩, h1, h2⟩
    · exact named_error hok h
    · obtain ⟨pre, rfl, hp⟩ := named_sound hok h1
      have := (isNamed_starts hp []).2
      simp only at h2
      rw [List.length_append] at hf
      split at h2
      · rcases bind_error h2 with h | ⟨_, _, h4⟩
        · exact namedSymbols_error (fun t ht => hok t (by simp [ht])) (by omega) h
        · cases h4
      · cases h2

theorem body_sound {fuel : Nat} {ts : List Tok} {b : Ast.Body} {r : List Tok} (hok : ∀ t ∈ ts, TokOk t)
    (h : body fuel ts = .ok (b, r)) : ∃ pre, ts = pre ++ r ∧ IsBody pre b := by
  unfold body at h
  obtain ⟨⟨ss, r'⟩, h1, h2⟩ := bind_ok h
  obtain ⟨pre, rfl, hp⟩ := namedSymbols_sound hok h1
  simp only at h2
  split at h2
  · rename_i c r''
    obtain ⟨t, _, rfl⟩ := tsCode_iff.mp (show Matches GrammarFile.tsCode c from hok (.code c) (by simp))
    rw [allocCode] at h2
    cases h2
    exact ⟨_, by simp, .mk hp⟩
  · cases h2

theorem body_error {fuel : Nat} {ts : List Tok} {e : Err} (hok : ∀ t ∈ ts, TokOk t) (hf : ts.length + 1 ≤ fuel)
    (h : body fuel ts = .error e) : e = .syntaxError := by
  unfold body at h
  rcases bind_error h with h | ⟨⟨ss, r'⟩, h1, h2⟩
  · exact namedSymbols_error hok hf h
  · obtain ⟨pre, rfl, hp⟩ := namedSymbols_sound hok h1
    simp only at h2
    split at h2
    · rename_i c r''
      obtain ⟨t, _, rfl⟩ := tsCode_iff.mp (show Matches GrammarFile.tsCode c from hok (.code c) (by simp))
      rw [allocCode] at h2
      cases h2
    · cases h2; rfl

theorem isBody_length {ts : List Tok} {b : Ast.Body} (h : IsBody ts b) : 0 < ts.length := by
  cases h; simp

theorem bodies_sound : ∀ {fuel : Nat} {ts : List Tok} {bs : List Ast.Body} {r : List Tok},
    (∀ t ∈ ts, TokOk t) → bodies fuel ts = .ok (bs, r) → ∃ pre, ts = pre ++ .rbrack :: r ∧ AreBodies pre bs
  | 0, _, _, _, _, h => by cases h
  | fuel + 1, ts, bs, r, hok, h => by
    unfold bodies at h
    split at h
    · cases h
    · cases h
      exact ⟨[], rfl, .nil⟩
    · rename_i hf _
      cases hf
      obtain ⟨⟨b, r'⟩, h1, h2⟩ := bind_ok h
      obtain ⟨pre, rfl, hp⟩ := body_sound hok h1
      simp only at h2
      split at h2
      · obtain ⟨⟨bs', r''⟩, h3, h4⟩ := bind_ok h2
        obtain ⟨pre', rfl, hp'⟩ := bodies_sound (fun t ht => hok t (by simp [ht])) h3
        cases h4
        exact ⟨pre ++ .comma :: pre', by simp, .cons hp hp'⟩
      · cases h2
        exact ⟨pre, rfl, .last hp⟩
      · cases h2

theorem bodies_error : ∀ {fuel : Nat} {ts : List Tok} {e : Err},
    (∀ t ∈ ts, TokOk t) → ts.length + 2 ≤ fuel → bodies fuel ts = .error e → e = .syntaxError
  | 0, _, _, _, hf, _ => by omega
  | fuel + 1, ts, e, hok, hf, h => by
    unfold bodies at h
    split at h
    · rename_i h0; cases h0
    · cases h
    · rename_i hf' _
      cases hf'
      rcases bind_error h with h | ⟨⟨b, r'⟩, h1, h2⟩
      · exact body_error hok (by omega) h
      · obtain ⟨pre, rfl, hp⟩ := body_sound hok h1
        simp only at h2
        split at h2
        · rcases bind_error h2 with h | ⟨_, _, h4⟩
          · simp only [List.length_append, List.length_cons] at hf
            exact bodies_error (fun t ht => hok t (by simp [ht])) (by omega) h
          · cases h4
        · cases h2
        · cases h2; rfl

theorem production_sound {fuel : Nat} {isStart : Bool} {ts : List Tok} {p : Ast.Prod} {r : List Tok}
    (hok : ∀ t ∈ ts, TokOk t) (h : production fuel isStart ts = .ok (p, r)) :
    ∃ n c pre bs, ts = .ident n :: .colon :: .code ('(' :: (c ++ [')'])) :: .eq :: .lbrack :: (pre ++ .rbrack :: r) ∧
      AreBodies pre bs ∧ p = ⟨n, bs, isStart, c⟩ := by
  unfold production at h
  split at h
  · rename_i n c r'
    obtain ⟨t, _, rfl⟩ := tsCode_iff.mp (show Matches GrammarFile.tsCode c from hok (.code c) (by simp))
    rw [allocCode] at h
    obtain ⟨⟨bs, r''⟩, h1, h2⟩ := bind_ok (show (bodies fuel r' >>= _) = _ from h)
    obtain ⟨pre, rfl, hp⟩ := bodies_sound (fun t ht => hok t (by simp [ht])) h1
    cases h2
    exact ⟨n, t, pre, bs, rfl, hp, rfl⟩
  · cases h

theorem production_error {fuel : Nat} {isStart : Bool} {ts : List Tok} {e : Err}
    (hok : ∀ t ∈ ts, TokOk t) (hf : ts.length ≤ fuel) (h : production fuel isStart ts = .error e) :
    e = .syntaxError := by
  unfold production at h
  split at h
  · rename_i n c r'
    obtain ⟨t, _, rfl⟩ := tsCode_iff.mp (show Matches GrammarFile.tsCode c from hok (.code c) (by simp))
    rw [allocCode] at h
    rcases bind_error (show (bodies fuel r' >>= _) = _ from h) with h | ⟨_, _, h2⟩
    · exact bodies_error (fun t ht => hok t (by simp [ht])) (by simp at hf; omega) h
    · cases h2
  · cases h; rfl

theorem exported_sound {fuel : Nat} {ts : List Tok} {p : Ast.Prod} {r : List Tok}
    (hok : ∀ t ∈ ts, TokOk t) (h : exported fuel ts = .ok (p, r)) : ∃ pre, ts = pre ++ r ∧ IsProd pre p := by
  unfold exported at h
  split at h
  · obtain ⟨n, c, pre, bs, rfl, hp, rfl⟩ := production_sound (fun t ht => hok t (by simp [ht])) h
    exact ⟨_, by simp, .start (n := n) (c := c) hp⟩
  · obtain ⟨n, c, pre, bs, rfl, hp, rfl⟩ := production_sound (fun t ht => hok t (by simp [ht])) h
    exact ⟨_, by simp, .exported (n := n) (c := c) hp⟩
  · obtain ⟨n, c, pre, bs, rfl, hp, rfl⟩ := production_sound hok h
    exact ⟨_, by simp, .bare (n := n) (c := c) hp⟩

theorem exported_error {fuel : Nat} {ts : List Tok} {e : Err}
    (hok : ∀ t ∈ ts, TokOk t) (hf : ts.length ≤ fuel) (h : exported fuel ts = .error e) : e = .syntaxError := by
  unfold exported at h
  split at h
  · exact production_error (fun t ht => hok t (by simp [ht])) (by simp at hf; omega) h
  · exact production_error (fun t ht => hok t (by simp [ht])) (by simp at hf; omega) h
  · exact production_error hok hf h

theorem program_sound : ∀ {fuel : Nat} {ts : List Tok} {ps : List Ast.Prod}, (∀ t ∈ ts, TokOk t) →
    program fuel ts = .ok ps → IsProgram ts ps
  | 0, _, _, _, h => by cases h
  | fuel + 1, ts, ps, hok, h => by
    rw [program] at h
    obtain ⟨⟨p, r⟩, h1, h2⟩ := bind_ok h
    obtain ⟨pre, rfl, hp⟩ := exported_sound hok h1
    simp only at h2
    split at h2
    · rename_i he
      rw [List.isEmpty_iff.mp he, List.append_nil]
      cases h2
      exact .one hp
    · obtain ⟨ps', h3, h4⟩ := bind_ok h2
      cases h4
      exact .cons hp (program_sound (fun t ht => hok t (by simp [ht])) h3)

theorem program_error : ∀ {fuel : Nat} {ts : List Tok} {e : Err}, (∀ t ∈ ts, TokOk t) → ts.length + 1 ≤ fuel →
    program fuel ts = .error e → e = .syntaxError
  | 0, _, _, _, hf, _ => by omega
  | fuel + 1, ts, e, hok, hf, h => by
    rw [program] at h
    rcases bind_error h with h | ⟨⟨p, r⟩, h1, h2⟩
    · exact exported_error hok (by omega) h
    · obtain ⟨pre, rfl, hp⟩ := exported_sound hok h1
      have := isProd_length hp
      simp only at h2
      split at h2
      · cases h2
      · rw [List.length_append] at hf
        rcases bind_error h2 with h | ⟨_, _, h4⟩
        · exact program_error (fun t ht => hok t (by simp [ht])) (by omega) h
        · cases h4

theorem parseGrammar_iff {text : Str} {ps : List Ast.Prod} :
    parseGrammar text = .ok ps ↔ ∃ ts, Cut text ts ∧ IsProgram ts ps := by
  constructor
  · intro h
    obtain ⟨ts, h1, h2⟩ := bind_ok h
    have hc := tokens_iff.mp h1
    exact ⟨ts, hc, program_sound (cut_ok hc) h2⟩
  · rintro ⟨ts, h1, h2⟩
    unfold parseGrammar
    rw [tokens_iff.mpr h1]
    exact program_complete h2 (Nat.le_refl _)

theorem parseGrammar_error {text : Str} {e : Err} (h : parseGrammar text = .error e) : e = .syntaxError := by
  rcases bind_error h with h | ⟨ts, h1, h2⟩
  · exact tokens_error (Nat.le_refl _) h
  · exact program_error (cut_ok (tokens_iff.mp h1)) (Nat.le_refl _) h2

end Verif.FrontEnd
