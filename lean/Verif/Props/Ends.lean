import Verif.Proofs.MunchEnds
import Verif.Props.LexExact

/-! # Property: blanks at the ends of a text (C92) -/

namespace Verif.Props
open Verif Spec

section
variable {toks : List (TokenDef × Hir)} {lx : Lex} {ord : Nfa.Order}

/-- Two texts whose pieces carry the same tokens are lexed alike. -/
theorem lex_same {a b : Str} {out out' : List (Nat × Nat × List Char)}
    (ha : ∀ ts, lx.lex a = .ok ts ↔ List.Forall₂ (Carries toks a) out ts)
    (ha' : (¬ ∃ ts, List.Forall₂ (Carries toks a) out ts) → lx.lex a = .error .charBoundary)
    (hb : ∀ ts, lx.lex b = .ok ts ↔ List.Forall₂ (Carries toks b) out' ts)
    (hb' : (¬ ∃ ts, List.Forall₂ (Carries toks b) out' ts) → lx.lex b = .error .charBoundary)
    (h : ∀ ts, List.Forall₂ (Carries toks a) out ts ↔ List.Forall₂ (Carries toks b) out' ts) : lx.lex a = lx.lex b := by
  by_cases he : ∃ ts, List.Forall₂ (Carries toks a) out ts
  · obtain ⟨ts, ht⟩ := he
    rw [(ha ts).mpr ht, (hb ts).mpr ((h ts).mp ht)]
  · rw [ha' he, hb' fun ⟨ts, ht⟩ => he ⟨ts, (h ts).mpr ht⟩]

theorem blank_bytes {c : Char} (h : Blank c) : bytes [c] = 1 := by
  rcases h with rfl | rfl <;> decide

theorem carries_cons {c : Char} (hc : Blank c) {input : Str} {p : Nat × Nat × List Char} {t : Token} :
    Carries toks (c :: input) (p.1 + 1, p.2) t ↔ Carries toks input p t := by
  unfold Carries
  simp only [Lex.bytesAt_cons (blank_bytes hc)]

theorem carries_append {input : Str} (r : Str) {p : Nat × Nat × List Char} (h : p.1 + p.2.2.length ≤ input.length) {t : Token} :
    Carries toks (input ++ r) p t ↔ Carries toks input p t := by
  unfold Carries
  simp only [Lex.bytesAt_append r h]

theorem pviable_of_token {al : List Match} {w : List Char} {i : Nat} (h : PToken al toks w i) : PViable al toks w :=
  let ⟨as, hr, _⟩ := h; ⟨as, hr⟩

/-- **C92, the front.**  Blanks that no token can begin with, written before a text, change nothing: same tokens, same values,
same panics. -/
theorem C92_front (ho : Reorders ord) (h : Lex.fromTokens ord toks = .ok lx) :
    ∃ al, Overlap.removeOverlap (ofList (rangesOf toks)) = .ok al ∧
      ∀ bs input, (∀ c ∈ bs, Blank c ∧ ¬ PViable al toks [c]) → lx.lex (bs ++ input) = lx.lex input := by
  obtain ⟨al, hal, hlex⟩ := C10_exact ho h
  refine ⟨al, hal, fun bs input hbs => ?_⟩
  induction bs with
  | nil => rfl
  | cons c bs ih =>
    rw [← ih fun d hd => hbs d (by simp [hd])]
    obtain ⟨hb, hv⟩ := hbs c (by simp)
    obtain ⟨out, dr, h1, _, h2, h3⟩ := hlex (bs ++ input)
    obtain ⟨out', dr', h4, h5, h6, h7⟩ := hlex (c :: bs ++ input)
    obtain ⟨rfl, -⟩ := h5 _ _ (.blank hb hv (by simpa using Lex.munch_shift h1 1))
    refine lex_same h6 h7 h2 h3 fun ts => ?_
    rw [List.forall₂_map_left_iff]
    exact ⟨fun h => h.imp fun _ _ => (carries_cons hb).mp, fun h => h.imp fun _ _ => (carries_cons hb).mpr⟩

theorem munch_all (ho : Reorders ord) (h : Lex.fromTokens ord toks = .ok lx) {al : List Match}
    (hal : Overlap.removeOverlap (ofList (rangesOf toks)) = .ok al) (k : Nat) (s : Str) :
    ∃ out dr, Munch (PToken al toks) (PViable al toks) k s out dr := by
  obtain ⟨al', hal', hlex⟩ := C10_exact ho h
  rw [hal] at hal'; cases hal'
  obtain ⟨out, dr, h1, _⟩ := hlex s
  exact ⟨_, dr, by simpa using Lex.munch_shift h1 k⟩

theorem carries_all {input : Str} (r : Str) {out : List (Nat × Nat × List Char)} (hin : ∀ p ∈ out, p.1 + p.2.2.length ≤ input.length) (ts : List Token) :
    List.Forall₂ (Carries toks (input ++ r)) out ts ↔ List.Forall₂ (Carries toks input) out ts := by
  induction out generalizing ts with
  | nil => simp
  | cons p out ih =>
    cases ts with
    | nil => simp
    | cons t ts =>
      rw [List.forall₂_cons, List.forall₂_cons, ih (fun q hq => hin q (by simp [hq])), carries_append r (hin p (by simp))]

/-- **C92, the back**, when the lexer does not drop the end of the text: blanks that are part of no token, written after it, change nothing.
Missing: texts whose end is dropped (`C92_false`). -/
theorem C92_back_partial (ho : Reorders ord) (h : Lex.fromTokens ord toks = .ok lx) :
    ∃ al, Overlap.removeOverlap (ofList (rangesOf toks)) = .ok al ∧
      ∀ bs input out, (∀ c ∈ bs, Blank c ∧ ∀ w, ¬ PViable al toks (w ++ [c])) →
        Munch (PToken al toks) (PViable al toks) 0 input out [] → lx.lex (input ++ bs) = lx.lex input := by
  obtain ⟨al, hal, hlex⟩ := C10_exact ho h
  refine ⟨al, hal, fun bs => ?_⟩
  induction bs with
  | nil => intro input out _ _; rw [List.append_nil]
  | cons c bs ih =>
    intro input out hbs hm
    obtain ⟨hb, hv⟩ := hbs c (by simp)
    obtain ⟨extra, dr', h1, h2⟩ := Lex.munch_snoc (T := PToken al toks) (V := PViable al toks) (fun _ _ => pviable_of_token) hb hv (munch_all ho h hal) hm
    obtain ⟨rfl, rfl⟩ := h2 rfl
    rw [List.append_nil] at h1
    rw [show input ++ c :: bs = (input ++ [c]) ++ bs by simp, ih _ _ (fun d hd => hbs d (by simp [hd])) h1]
    obtain ⟨out1, dr1, _, h5, h6, h7⟩ := hlex (input ++ [c])
    obtain ⟨rfl, -⟩ := h5 _ _ h1
    obtain ⟨out2, dr2, _, h8, h9, h10⟩ := hlex input
    obtain ⟨rfl, -⟩ := h8 _ _ hm
    exact lex_same h6 h7 h9 h10 (carries_all [c] fun p hp => by simpa using Lex.munch_inside hm p hp)

/-- C92: in any case such blanks at the end take no token away. -/
theorem C92_grows (ho : Reorders ord) (h : Lex.fromTokens ord toks = .ok lx) :
    ∃ al, Overlap.removeOverlap (ofList (rangesOf toks)) = .ok al ∧
      ∀ c input ts, Blank c → (∀ w, ¬ PViable al toks (w ++ [c])) → lx.lex (input ++ [c]) = .ok ts →
        ∃ n, lx.lex input = .ok (ts.take n) := by
  obtain ⟨al, hal, hlex⟩ := C10_exact ho h
  refine ⟨al, hal, fun c input ts hb hv hts => ?_⟩
  obtain ⟨out, dr, hm, _, h6, _⟩ := hlex input
  obtain ⟨extra, dr', h1, _⟩ := Lex.munch_snoc (T := PToken al toks) (V := PViable al toks) (fun _ _ => pviable_of_token) hb hv (munch_all ho h hal) hm
  obtain ⟨out1, dr1, _, h5, h7, _⟩ := hlex (input ++ [c])
  obtain ⟨rfl, -⟩ := h5 _ _ h1
  refine ⟨out.length, (h6 _).mpr ?_⟩
  have hf := (h7 ts).mp hts
  rw [← carries_all [c] fun p hp => by simpa using Lex.munch_inside hm p hp]
  have := List.forall₂_take out.length hf
  rwa [List.take_left] at this

end

/-- A character in none of the pieces is part of no token. -/
theorem not_viable {al : List Match} {toks : List (TokenDef × Hir)} {c : Char} (h : ∀ a ∈ al, ¬ (a.lo ≤ c.toNat ∧ c.toNat < a.hi)) (w : List Char) :
    ¬ PViable al toks (w ++ [c]) := by
  rintro ⟨as, hr⟩
  generalize hw : w ++ [c] = v at hr
  cases hr with
  | nil => simp at hw
  | snoc _ hch =>
    obtain ⟨-, hc⟩ := List.append_inj' hw rfl
    cases hc
    obtain ⟨l1, l2, rfl, hm, -⟩ := hch
    exact h _ (by simp) hm

/-- C92 for the parser in the generator: blanks no token can begin with, before a text, and, when the end is not dropped, blanks that
are part of no token, after it.
Missing: texts whose end is dropped (`C92_false`). -/
theorem C92_parse_partial {toks : List (TokenDef × Hir)} {ord : Nfa.Order} {l : Lalr} (ho : Reorders ord)
    (h : Lex.fromTokens ord toks = .ok l.lexer) :
    ∃ al, Overlap.removeOverlap (ofList (rangesOf toks)) = .ok al ∧ ∀ fuel bs input,
      ((∀ c ∈ bs, Blank c ∧ ¬ PViable al toks [c]) → l.parse fuel (bs ++ input) = l.parse fuel input) ∧
      ∀ out, (∀ c ∈ bs, Blank c ∧ ∀ w, ¬ PViable al toks (w ++ [c])) → Munch (PToken al toks) (PViable al toks) 0 input out [] →
        l.parse fuel (input ++ bs) = l.parse fuel input := by
  obtain ⟨al, hal, h1⟩ := C92_front ho h
  obtain ⟨al', hal', h2⟩ := C92_back_partial ho h
  rw [hal] at hal'; cases hal'
  refine ⟨al, hal, fun fuel bs input => ⟨fun hb => ?_, fun out hb hm => ?_⟩⟩
  · unfold Lalr.parse; rw [h1 bs input hb]
  · unfold Lalr.parse; rw [h2 bs input out hb hm]

/-- The pieces of the tokens `a`, `abc`, `b`. -/
def dropPieces : List Match := [⟨97, 98⟩, ⟨98, 99⟩, ⟨99, 100⟩]

theorem drop_blank (c : Char) (hc : Blank c) (w : List Char) : ¬ PViable dropPieces dropToks (w ++ [c]) := by
  refine not_viable ?_ w
  rcases hc with rfl | rfl <;> decide

-- C92: the hypotheses; nothing of a line break and `b` is dropped.
example : ∃ lx, Lex.fromTokens (fun _ l => l) dropToks = .ok lx ∧ Reorders (fun _ l => l) ∧
    Overlap.removeOverlap (ofList (rangesOf dropToks)) = .ok dropPieces ∧ (∀ c, Blank c → ∀ w, ¬ PViable dropPieces dropToks (w ++ [c])) ∧
    Munch (PToken dropPieces dropToks) (PViable dropPieces dropToks) 0 "\nb".toList [(1, 2, ['b'])] [] ∧
    lx.lex " \nabc".toList = .ok [⟨"abc".toList, none⟩] ∧ lx.lex "abc \n".toList = .ok [⟨"abc".toList, none⟩] := by
  refine ⟨_, rfl, reorders_id, rfl, drop_blank, ?_, by rfl, by rfl⟩
  have hr : Reads dropPieces (dropToks.map Prod.snd) ([] ++ ['b']) ([] ++ [⟨98, 99⟩]) :=
    .snoc .nil ⟨[⟨97, 98⟩], [⟨99, 100⟩], rfl, ⟨by decide, by decide⟩, ⟨⟨98, 99⟩, ⟨.lit 98, by simp [dropToks], .lit⟩, fun _ h => h⟩,
      fun b hb hm => by simp at hb; subst hb; exact absurd hm.2 (by decide)⟩
  refine .blank (.inr rfl) (drop_blank '\n' (.inr rfl) []) (.tokEnd (rest := []) ⟨by simp, ⟨[], rfl⟩, ?_, ?_⟩ rfl ⟨_, hr⟩)
  · refine ⟨_, hr, ⟨_, rfl, .lit ⟨by decide, by decide⟩⟩, ?_⟩
    intro j p hj hp hm
    match j, hj with
    | 0, _ => cases hp; cases hm with | lit h => exact absurd h.2 (by decide)
    | 1, _ =>
      cases hp
      generalize ha : ([] : List Match) ++ [⟨98, 99⟩] = as at hm
      cases hm with
      | concatCons h1 h2 =>
        cases h1 with
        | lit h => simp at ha; obtain ⟨rfl, -⟩ := ha; exact absurd h.2 (by decide)
  · rintro v j ⟨r, hr⟩ hl
    have := congrArg List.length hr
    simp at this hl; omega

/-- C92 is false of the code at the back: of the tokens `a`, `abc`, `b`, the text `ab` has the token `a` only; with a line break after it,
it has `b` also. -/
theorem C92_false : ∃ toks lx al, Lex.fromTokens (fun _ l => l) toks = .ok lx ∧
    Overlap.removeOverlap (ofList (rangesOf toks)) = .ok al ∧ (∀ w, ¬ PViable al toks (w ++ ['\n'])) ∧
    lx.lex "ab".toList = .ok [⟨"a".toList, none⟩] ∧ lx.lex "ab\n".toList = .ok [⟨"a".toList, none⟩, ⟨"b".toList, none⟩] :=
  ⟨dropToks, _, dropPieces, rfl, rfl, drop_blank _ (.inr rfl), by rfl, by rfl⟩

end Verif.Props
