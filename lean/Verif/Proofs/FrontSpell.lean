import Verif.Proofs.FrontParse

/-! # Writing a grammar file -/

namespace Verif.FrontEnd
open Verif.Spec

/-- The text of a token. -/
def spell : Tok → Str
  | .quoted s => s
  | .ident s => s
  | .code s => s
  | .comma => ",".toList
  | .colon => ":".toList
  | .lt => "<".toList
  | .eq => "=".toList
  | .arrow => "=>".toList
  | .gt => ">".toList
  | .lbrack => "[".toList
  | .rbrack => "]".toList
  | .export => "export".toList
  | .r => "r".toList
  | .start => "start".toList

/-- A text with one token per line. -/
def spellAll (ts : List Tok) : Str := ts.flatMap fun t => spell t ++ ['\n']

theorem mem_of_longer {w rest v r : Str} {c : Char} (h : w ++ c :: rest = v ++ r) (hl : w.length < v.length) : c ∈ v := by
  have : (w ++ c :: rest)[w.length]? = (v ++ r)[w.length]? := by rw [h]
  rw [List.getElem?_append_right (Nat.le_refl _), List.getElem?_append_left hl] at this
  simp at this
  obtain ⟨_, h2⟩ := List.getElem?_eq_some_iff.mp this.symm
  rw [← h2]
  exact List.getElem_mem _

theorem ident_no_newline {v : Str} (h : Matches GrammarFile.ident v) : '\n' ∉ v := by
  obtain ⟨c, s, rfl, hc, hs⟩ := ident_iff.mp h
  intro hm
  rcases List.mem_cons.mp hm with e | e
  · rw [← e] at hc; exact absurd hc (by decide)
  · exact absurd (hs _ e) (by decide)

theorem quoted_head {v : Str} (h : Matches GrammarFile.quoted v) : v.head? = some '"' := by
  obtain ⟨t, _, rfl⟩ := quoted_iff.mp h; rfl

theorem terminal_length {t : (Str → Tok) × Hir} (ht : t ∈ terminals) {w rest v r : Str}
    (hq : Matches GrammarFile.quoted w ∨ w.head? ≠ some '"') (hw : w ≠ [])
    (e : w ++ '\n' :: rest = v ++ r) (hv : Matches t.2 v) : v.length ≤ w.length := by
  have lits : ∀ {s : String}, Matches (literal s) v → '\n' ∉ s.toList → v.length ≤ w.length := by
    intro s h1 h2
    refine Nat.le_of_not_lt fun hlt => ?_
    have := mem_of_longer e hlt
    rw [literal_iff.mp h1] at this
    exact h2 this
  simp only [terminals, List.mem_cons, List.not_mem_nil, or_false] at ht
  rcases ht with rfl | rfl | rfl | rfl | rfl | rfl | rfl | rfl | rfl | rfl | rfl | rfl | rfl | rfl
  · rcases hq with hq | hq
    · obtain ⟨a, ha, rfl⟩ := quoted_iff.mp hq
      obtain ⟨b, hb, rfl⟩ := quoted_iff.mp hv
      simp only [List.cons_append, List.append_assoc, List.nil_append, List.cons.injEq, true_and] at e
      have h1 := quotedRest_max ha ('\n' :: rest)
      have h2 := quotedRest_max hb r
      rw [e, h2] at h1
      simp at h1 ⊢
      omega
    · have h1 := quoted_head hv
      cases w with
      | nil => exact absurd rfl hw
      | cons c w =>
        cases v with
        | nil => cases h1
        | cons d v =>
          simp at e h1 hq
          exact absurd (e.1.trans h1) hq
  · obtain ⟨b, hb, rfl⟩ := tsCode_iff.mp hv
    refine Nat.le_of_not_lt fun hlt => ?_
    have := mem_of_longer e hlt
    simp at this
    exact hb this
  · exact Nat.le_of_not_lt fun hlt => ident_no_newline hv (mem_of_longer e hlt)
  all_goals exact lits hv (by decide)

theorem cut_spell_cons {t : Tok} {s : Str} {ts : List Tok} (ht : TokOk t) (h : Cut s ts) :
    Cut (spell t ++ '\n' :: s) (t :: ts) := by
  have hs : Cut ('\n' :: s) ts := .space (white_iff.mp (by decide)) h
  have key : ∀ {i : Nat} {mk : Str → Tok} {hir : Hir} {w : Str}, terminals[i]? = some (mk, hir) → Matches hir w →
      (Matches GrammarFile.quoted w ∨ w.head? ≠ some '"') → w ≠ [] →
      (∀ (j : Nat) t, i < j → terminals[j]? = some t → ¬ Matches t.2 w) → Longest i w ('\n' :: s) :=
    fun h1 h2 h3 h4 h5 => ⟨⟨_, h1, h2⟩, fun t htm v r e hv => terminal_length htm h3 h4 e hv, h5⟩
  have lits : ∀ {i : Nat} {mk : Str → Tok} {l : String}, terminals[i]? = some (mk, literal l) → l.toList ≠ [] →
      l.toList.head? ≠ some '"' →
      (∀ (j : Nat) t, i < j → terminals[j]? = some t → ¬ Matches t.2 l.toList) →
      Cut (l.toList ++ '\n' :: s) (mk l.toList :: ts) :=
    fun h1 h2 h3 h4 => .token (key h1 (literal_iff.mpr rfl) (.inr h3) h2 h4) h1 hs
  have others : ∀ {i : Nat} {w : Str}, (3 ≤ i + 1) → (∀ (j : Nat) l, i < j →
      (["", "", "", ",", ":", "<", "=", "=>", ">", "[", "]", "export", "r", "start"] : List String)[j]? = some l → w ≠ l.toList) →
      ∀ (j : Nat) t, i < j → terminals[j]? = some t → ¬ Matches t.2 w := by
    intro i w h3 h j t hij hj hm
    match j, hij, hj with
    | 0, hij, _ | 1, hij, _ | 2, hij, _ => omega
    | 3, hij, hj | 4, hij, hj | 5, hij, hj | 6, hij, hj | 7, hij, hj | 8, hij, hj | 9, hij, hj | 10, hij, hj
    | 11, hij, hj | 12, hij, hj | 13, hij, hj => cases hj; exact h _ _ hij rfl (literal_iff.mp hm)
    | _ + 14, _, hj => cases hj
  have dec : ∀ (i : Nat) (l : String), (∀ j : Fin 14, i < j.1 →
      (["", "", "", ",", ":", "<", "=", "=>", ">", "[", "]", "export", "r", "start"] : List String)[j.1]? ≠ some l) →
      ∀ (j : Nat) l', i < j →
      (["", "", "", ",", ":", "<", "=", "=>", ">", "[", "]", "export", "r", "start"] : List String)[j]? = some l' →
      l.toList ≠ l'.toList := by
    intro i l h j l' hij hj e
    have hlt := (List.getElem?_eq_some_iff.mp hj).1
    rw [String.toList_inj.mp e] at h
    exact h ⟨j, hlt⟩ hij hj
  cases t with
  | quoted w =>
    obtain ⟨a, _, rfl⟩ := quoted_iff.mp ht
    refine .token (i := 0) (w := '"' :: (a ++ ['"'])) (h := GrammarFile.quoted) (mk := .quoted) (key rfl ht (.inl ht) (by simp) ?_) rfl hs
    intro j t hj hj' hm
    match j, hj, hj' with
    | 1, _, hj' => cases hj'; obtain ⟨b, _, e⟩ := tsCode_iff.mp hm; simp at e
    | 2, _, hj' =>
      cases hj'
      obtain ⟨c, b, e, hc, _⟩ := ident_iff.mp hm
      simp at e; rw [← e.1] at hc; exact absurd hc (by decide)
    | 3, _, hj' | 4, _, hj' | 5, _, hj' | 6, _, hj' | 7, _, hj' | 8, _, hj' | 9, _, hj' | 10, _, hj' | 11, _, hj'
    | 12, _, hj' | 13, _, hj' =>
      cases hj'
      have := congrArg List.head? (literal_iff.mp hm)
      exact absurd (show some '"' = _ from this) (by decide)
    | _ + 14, _, hj' => cases hj'
  | code w =>
    obtain ⟨a, _, rfl⟩ := tsCode_iff.mp ht
    refine .token (i := 1) (w := '(' :: (a ++ [')'])) (h := GrammarFile.tsCode) (mk := .code) (key rfl ht (.inr (by simp)) (by simp) ?_) rfl hs
    intro j t hj hj' hm
    match j, hj, hj' with
    | 2, _, hj' =>
      cases hj'
      obtain ⟨c, b, e, hc, _⟩ := ident_iff.mp hm
      simp at e; rw [← e.1] at hc; exact absurd hc (by decide)
    | 3, _, hj' | 4, _, hj' | 5, _, hj' | 6, _, hj' | 7, _, hj' | 8, _, hj' | 9, _, hj' | 10, _, hj' | 11, _, hj'
    | 12, _, hj' | 13, _, hj' =>
      cases hj'
      have := congrArg List.head? (literal_iff.mp hm)
      exact absurd (show some '(' = _ from this) (by decide)
    | _ + 14, _, hj' => cases hj'
  | ident w =>
    obtain ⟨hi, h1, h2, h3⟩ := ht
    obtain ⟨c, b, e, hc, _⟩ := ident_iff.mp hi
    have hh : w.head? = some c := by rw [e]; rfl
    refine .token (i := 2) (w := w) (h := GrammarFile.ident) (mk := .ident) (key rfl hi (.inr ?_) (by rw [e]; simp) ?_) rfl hs
    · rw [hh]; intro e; cases e; exact absurd hc (by decide)
    · refine others (by decide) fun j l hj hl hw => ?_
      have hd : l.toList.head? = some c := by rw [← hw, hh]
      match j, hj, hl with
      | 3, _, hl | 4, _, hl | 5, _, hl | 6, _, hl | 7, _, hl | 8, _, hl | 9, _, hl | 10, _, hl =>
        cases hl; cases hd; exact absurd hc (by decide)
      | 11, _, hl => cases hl; exact h1 hw
      | 12, _, hl => cases hl; exact h3 hw
      | 13, _, hl => cases hl; exact h2 hw
      | _ + 14, _, hl => cases hl
  | comma => exact lits (i := 3) rfl (by decide) (by decide) (others (by decide) (dec _ _ (by decide)))
  | colon => exact lits (i := 4) rfl (by decide) (by decide) (others (by decide) (dec _ _ (by decide)))
  | lt => exact lits (i := 5) rfl (by decide) (by decide) (others (by decide) (dec _ _ (by decide)))
  | eq => exact lits (i := 6) rfl (by decide) (by decide) (others (by decide) (dec _ _ (by decide)))
  | arrow => exact lits (i := 7) rfl (by decide) (by decide) (others (by decide) (dec _ _ (by decide)))
  | gt => exact lits (i := 8) rfl (by decide) (by decide) (others (by decide) (dec _ _ (by decide)))
  | lbrack => exact lits (i := 9) rfl (by decide) (by decide) (others (by decide) (dec _ _ (by decide)))
  | rbrack => exact lits (i := 10) rfl (by decide) (by decide) (others (by decide) (dec _ _ (by decide)))
  | «export» => exact lits (i := 11) rfl (by decide) (by decide) (others (by decide) (dec _ _ (by decide)))
  | r => exact lits (i := 12) rfl (by decide) (by decide) (others (by decide) (dec _ _ (by decide)))
  | start => exact lits (i := 13) rfl (by decide) (by decide) (others (by decide) (dec _ _ (by decide)))

theorem cut_spellAll : ∀ {ts : List Tok}, (∀ t ∈ ts, TokOk t) → Cut (spellAll ts) ts
  | [], _ => .nil
  | t :: ts, h => by
    have := cut_spell_cons (h t (by simp)) (cut_spellAll (ts := ts) fun x hx => h x (by simp [hx]))
    unfold spellAll at this ⊢
    simpa using this

/-! ## The grammars that can be written -/

theorem isSymbol_iff {s : Ast.InSym} : (∃ ts, IsSymbol ts s ∧ ∀ t ∈ ts, TokOk t) ↔ PlainSym s := by
  constructor
  · rintro ⟨ts, h, hok⟩
    cases h with
    | lit =>
      obtain ⟨a, ha, e⟩ := quoted_iff.mp (show Matches GrammarFile.quoted _ from hok (.quoted _) List.mem_cons_self)
      simp at e; subst e; exact .lit ha
    | regex =>
      obtain ⟨a, ha, e⟩ := quoted_iff.mp (show Matches GrammarFile.quoted _ from
        hok (.quoted _) (List.mem_cons_of_mem _ List.mem_cons_self))
      simp at e; subst e; exact .regex ha
    | nonTerm => exact .nonTerm (hok (.ident _) List.mem_cons_self)
  · intro h
    cases h with
    | lit h => exact ⟨_, .lit, by intro t ht; rw [List.mem_singleton.mp ht]; exact quoted_iff.mpr ⟨_, h, rfl⟩⟩
    | regex h =>
      refine ⟨_, .regex, fun t ht => ?_⟩
      simp at ht
      rcases ht with rfl | rfl
      · trivial
      · exact quoted_iff.mpr ⟨_, h, rfl⟩
    | nonTerm h => exact ⟨_, .nonTerm, by intro t ht; rw [List.mem_singleton.mp ht]; exact h⟩

theorem isNamed_iff {s : Ast.InSym} : (∃ ts, IsNamed ts s ∧ ∀ t ∈ ts, TokOk t) ↔ WritableSym s := by
  constructor
  · rintro ⟨ts, h, hok⟩
    cases h with
    | named h =>
      exact .named (hok (.ident _) (by simp)) (isSymbol_iff.mp ⟨_, h, fun t ht => hok t (by simp [ht])⟩)
    | plain h => exact .plain (isSymbol_iff.mp ⟨_, h, hok⟩)
  · intro h
    cases h with
    | plain h =>
      obtain ⟨ts, h1, h2⟩ := isSymbol_iff.mpr h
      exact ⟨ts, .plain h1, h2⟩
    | named hn h =>
      obtain ⟨ts, h1, h2⟩ := isSymbol_iff.mpr h
      refine ⟨_, .named h1, fun t ht => ?_⟩
      simp at ht
      rcases ht with rfl | rfl | rfl | ht | rfl
      · trivial
      · exact hn
      · trivial
      · exact h2 t ht
      · trivial

theorem areNamed_iff : ∀ {ss : List Ast.InSym}, (∃ ts, AreNamed ts ss ∧ ∀ t ∈ ts, TokOk t) ↔
    (ss ≠ [] ∧ ∀ s ∈ ss, WritableSym s) := by
  intro ss
  constructor
  · rintro ⟨ts, h, hok⟩
    induction h with
    | one h =>
      refine ⟨by simp, fun s hs => ?_⟩
      rw [List.mem_singleton.mp hs]
      exact isNamed_iff.mp ⟨_, h, hok⟩
    | cons h _ ih =>
      refine ⟨by simp, fun s hs => ?_⟩
      rcases List.mem_cons.mp hs with rfl | hs
      · exact isNamed_iff.mp ⟨_, h, fun t ht => hok t (by simp [ht])⟩
      · exact (ih fun t ht => hok t (by simp [ht])).2 s hs
  · rintro ⟨hne, h⟩
    induction ss with
    | nil => exact absurd rfl hne
    | cons s ss ih =>
      obtain ⟨ts, h1, h2⟩ := isNamed_iff.mpr (h s (by simp))
      cases ss with
      | nil => exact ⟨ts, .one h1, h2⟩
      | cons s' ss =>
        obtain ⟨ts', h3, h4⟩ := ih (by simp) (fun x hx => h x (by simp [hx]))
        refine ⟨_, .cons h1 h3, fun t ht => ?_⟩
        rcases List.mem_append.mp ht with ht | ht
        · exact h2 t ht
        · exact h4 t ht

theorem isBody_iff {b : Ast.Body} : (∃ ts, IsBody ts b ∧ ∀ t ∈ ts, TokOk t) ↔
    ((b.inputs ≠ [] ∧ ∀ s ∈ b.inputs, WritableSym s) ∧ '\n' ∉ b.mapping) := by
  constructor
  · rintro ⟨ts, h, hok⟩
    cases h with
    | mk h =>
      rename_i ts ss c
      refine ⟨areNamed_iff.mp ⟨_, h, fun t ht => hok t (by simp [ht])⟩, ?_⟩
      obtain ⟨a, ha, e⟩ := tsCode_iff.mp (show Matches GrammarFile.tsCode ('(' :: (c ++ [')'])) from hok (.code _) (by simp))
      simp at e; subst e; exact ha
  · rintro ⟨h1, h2⟩
    obtain ⟨ts, h3, h4⟩ := areNamed_iff.mpr h1
    refine ⟨_, .mk (c := b.mapping) h3, fun t ht => ?_⟩
    simp at ht
    rcases ht with ht | rfl | rfl
    · exact h4 t ht
    · trivial
    · exact tsCode_iff.mpr ⟨_, h2, rfl⟩

theorem areBodies_iff {bs : List Ast.Body} : (∃ ts, AreBodies ts bs ∧ ∀ t ∈ ts, TokOk t) ↔
    ∀ b ∈ bs, (b.inputs ≠ [] ∧ ∀ s ∈ b.inputs, WritableSym s) ∧ '\n' ∉ b.mapping := by
  constructor
  · rintro ⟨ts, h, hok⟩
    induction h with
    | nil => simp
    | last h =>
      intro b hb
      rw [List.mem_singleton.mp hb]
      exact isBody_iff.mp ⟨_, h, hok⟩
    | cons h _ ih =>
      intro b hb
      rcases List.mem_cons.mp hb with rfl | hb
      · exact isBody_iff.mp ⟨_, h, fun t ht => hok t (by simp [ht])⟩
      · exact ih (fun t ht => hok t (by simp [ht])) b hb
  · intro h
    induction bs with
    | nil => exact ⟨[], .nil, by simp⟩
    | cons b bs ih =>
      obtain ⟨ts, h1, h2⟩ := isBody_iff.mpr (h b (by simp))
      obtain ⟨ts', h3, h4⟩ := ih fun x hx => h x (by simp [hx])
      refine ⟨_, .cons h1 h3, fun t ht => ?_⟩
      simp at ht
      rcases ht with ht | rfl | ht
      · exact h2 t ht
      · trivial
      · exact h4 t ht

/-- What `Writable` asks of one production. -/
def WritableProd (p : Ast.Prod) : Prop :=
  IdentName p.name ∧ '\n' ∉ p.tsCode ∧
    ∀ b ∈ p.bodies, (b.inputs ≠ [] ∧ ∀ s ∈ b.inputs, WritableSym s) ∧ '\n' ∉ b.mapping

theorem isProd_iff {p : Ast.Prod} : (∃ ts, IsProd ts p ∧ ∀ t ∈ ts, TokOk t) ↔ WritableProd p := by
  constructor
  · rintro ⟨ts, h, hok⟩
    cases h <;> rename_i n c ts bs h <;>
      refine ⟨hok (.ident n) (by simp), ?_, areBodies_iff.mp ⟨_, h, fun t ht => hok t (by simp [ht])⟩⟩ <;>
      obtain ⟨a, ha, e⟩ := tsCode_iff.mp (show Matches GrammarFile.tsCode ('(' :: (c ++ [')'])) from hok (.code _) (by simp)) <;>
      simp at e <;> subst e <;> exact ha
  · rintro ⟨h1, h2, h3⟩
    obtain ⟨ts, h4, h5⟩ := areBodies_iff.mpr h3
    have hc : TokOk (.code ('(' :: (p.tsCode ++ [')']))) := tsCode_iff.mpr ⟨_, h2, rfl⟩
    obtain ⟨n, bs, st, c⟩ := p
    cases st with
    | false =>
      refine ⟨_, .bare h4, fun t ht => ?_⟩
      simp at ht
      rcases ht with rfl | rfl | rfl | rfl | rfl | ht | rfl
      · exact h1
      · trivial
      · exact hc
      · trivial
      · trivial
      · exact h5 t ht
      · trivial
    | true =>
      refine ⟨_, .start h4, fun t ht => ?_⟩
      simp at ht
      rcases ht with rfl | rfl | rfl | rfl | rfl | rfl | rfl | ht | rfl
      · trivial
      · trivial
      · exact h1
      · trivial
      · exact hc
      · trivial
      · trivial
      · exact h5 t ht
      · trivial

theorem isProgram_iff {ps : List Ast.Prod} : (∃ ts, IsProgram ts ps ∧ ∀ t ∈ ts, TokOk t) ↔
    (ps ≠ [] ∧ ∀ p ∈ ps, WritableProd p) := by
  constructor
  · rintro ⟨ts, h, hok⟩
    induction h with
    | one h =>
      refine ⟨by simp, fun s hs => ?_⟩
      rw [List.mem_singleton.mp hs]
      exact isProd_iff.mp ⟨_, h, hok⟩
    | cons h _ ih =>
      refine ⟨by simp, fun s hs => ?_⟩
      rcases List.mem_cons.mp hs with rfl | hs
      · exact isProd_iff.mp ⟨_, h, fun t ht => hok t (by simp [ht])⟩
      · exact (ih fun t ht => hok t (by simp [ht])).2 s hs
  · rintro ⟨hne, h⟩
    induction ps with
    | nil => exact absurd rfl hne
    | cons s ss ih =>
      obtain ⟨ts, h1, h2⟩ := isProd_iff.mpr (h s (by simp))
      cases ss with
      | nil => exact ⟨ts, .one h1, h2⟩
      | cons s' ss =>
        obtain ⟨ts', h3, h4⟩ := ih (by simp) (fun x hx => h x (by simp [hx]))
        refine ⟨_, .cons h1 h3, fun t ht => ?_⟩
        rcases List.mem_append.mp ht with ht | ht
        · exact h2 t ht
        · exact h4 t ht

theorem writable_iff {ps : List Ast.Prod} : Writable ps ↔ (ps ≠ [] ∧ ∀ p ∈ ps, WritableProd p) := by
  constructor
  · intro h
    exact ⟨h.some, fun p hp => ⟨h.name p hp, h.type p hp, fun b hb => ⟨h.inputs p hp b hb, h.mapping p hp b hb⟩⟩⟩
  · rintro ⟨h1, h2⟩
    exact ⟨h1, fun p hp => (h2 p hp).1, fun p hp => (h2 p hp).2.1, fun p hp b hb => ((h2 p hp).2.2 b hb).1,
      fun p hp b hb => ((h2 p hp).2.2 b hb).2⟩

theorem written_iff {ps : List Ast.Prod} : (∃ text, parseGrammar text = .ok ps) ↔ Writable ps := by
  rw [writable_iff, ← isProgram_iff]
  constructor
  · rintro ⟨text, h⟩
    obtain ⟨ts, h1, h2⟩ := parseGrammar_iff.mp h
    exact ⟨ts, h2, cut_ok h1⟩
  · rintro ⟨ts, h1, h2⟩
    exact ⟨spellAll ts, parseGrammar_iff.mpr ⟨ts, cut_spellAll h2, h1⟩⟩

end Verif.FrontEnd
