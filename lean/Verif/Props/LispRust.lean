import Verif.Proofs.LispRust
import Verif.Props.Lisp

/-! # Property C63: the grammar of the project and the parser in the generator

What `Lalr::parse` (src/lalr.rs) answers for basic_lisp.tlalr on every text, in terms of the
language of `Verif.Spec.Lisp`. -/

namespace Verif.Props
open Verif Spec MiniTs

theorem list_last (es : Lisp.Exprs) (n : Nat) : (Lisp.listWords es).getLast? ≠ some (.int n) := by
  rw [show Lisp.listWords es = (.lpar :: es.words) ++ [.rpar] from rfl, List.getLast?_concat]
  simp

theorem lisp_rule_count : (lower lispAst).prods.length = 7 := by
  have := congrArg List.length lisp_prods
  simpa using this

/-- The cut of a text and the answer for it. -/
theorem lisp_decides (text : Str) : ∃ (pieces : List (Nat × Nat × Str)) (xs : List Lisp.Word) (body rest : Str),
    text = body ++ rest ∧ Lexes lispDefs 0 text pieces rest ∧ Pieced pieces xs ∧ Lisp.Spaced xs body ∧ Lisp.Stuck rest ∧
    ∀ fuel, 8 * (2 * text.length + 1) ≤ fuel →
      (Sentence (AstRule lispAst) "SExpr".toList (xs.map wordSym) →
        ∃ f, IsTree (lower lispAst).prods "SExpr".toList f (xs.map wordSym) ∧ lispL.parse fuel text = .ok f.post) ∧
      (¬ Sentence (AstRule lispAst) "SExpr".toList (xs.map wordSym) → lispL.parse fuel text = .error .invalidToken) := by
  obtain ⟨pieces, cut, dropped, ws, hD, h0, hL, hws, hor⟩ := C33_decides_partial lisp_generated reorders_id lisp_distinct
    (noCollisions_id _ _) lisp_transitions lisp_defs lisp_atoms lisp_nonVoid text
  obtain ⟨xs, body, hb, hst, hsp, hpc⟩ := lexes_spaced hL
  have hcut : cut = body := List.append_cancel_right (h0.symm.trans hb)
  obtain ⟨hy, _⟩ := pieced_syms hpc
  have hwx : ws = xs.map wordSym :=
    List.map_injective_iff.mpr (fun _ _ h => Option.some.inj h) (hws.symm.trans hy)
  have hstart : (startOf lispAst).name = "SExpr".toList := by decide +kernel
  have hlen : ws.length ≤ text.length := by
    have h1 := congrArg List.length hws
    have h2 := Lex.pieces_len (Lex.lexes_pieces hL)
    simp only [List.length_map] at h1
    omega
  refine ⟨pieces, xs, body, dropped, hb, hL, hpc, hsp, hst, fun fuel hf => ?_⟩
  rw [hwx, hstart] at hor
  rcases hor with ⟨_, ⟨c, hc, h128⟩, _⟩ | ⟨_, hor⟩
  · rw [hcut] at hc
    exact absurd (spaced_ascii hsp c hc) (by omega)
  · refine hor fuel ?_
    rw [lisp_rule_count]
    refine Nat.le_trans ?_ hf
    rw [Nat.mul_comm 8]
    rw [hwx] at hlen
    exact Nat.mul_le_mul_right 8 (by omega)

theorem lisp_answer (text : Str) {fuel : Nat} (hf : 8 * (2 * text.length + 1) ≤ fuel) :
    (∀ out, lispL.parse fuel text = .ok out ↔ ∃ (es : Lisp.Exprs) (body rest : Str), text = body ++ rest ∧
      Lisp.Spaced (Lisp.listWords es) body ∧ Lisp.Stuck rest ∧ out = Lisp.listRules es) ∧
    ((∃ out, lispL.parse fuel text = .ok out) ∨ lispL.parse fuel text = .error .invalidToken) := by
  have hstart : (startOf lispAst).name = "SExpr".toList := by decide +kernel
  obtain ⟨pieces, xs, cut, dropped, h0, hL, hpc, hsp, hst, hor⟩ := lisp_decides text
  obtain ⟨yes, no⟩ := hor fuel hf
  clear hor
  obtain ⟨hy, _⟩ := pieced_syms hpc
  have unique : ∀ {es : Lisp.Exprs} {body rest : Str}, text = body ++ rest → Lisp.Spaced (Lisp.listWords es) body →
      Lisp.Stuck rest → xs.map wordSym = (Lisp.listWords es).map wordSym := by
    intro es body rest e h1 h2
    obtain ⟨out', h, hpc'⟩ := spaced_lexes h1 h2 (list_last es) 0
    rw [← e] at h
    obtain ⟨rfl, _⟩ := Lex.lexes_unique hL h
    obtain ⟨hy', _⟩ := pieced_syms hpc'
    exact List.map_injective_iff.mpr (fun _ _ h => Option.some.inj h) (hy.symm.trans hy')
  generalize lispL.parse fuel text = r at yes no ⊢
  by_cases hS : Sentence (AstRule lispAst) "SExpr".toList (xs.map wordSym)
  · obtain ⟨f, h1, h2⟩ := yes hS
    refine ⟨fun out => ?_, .inl ⟨_, h2⟩⟩
    rw [h2]
    constructor
    · intro h
      obtain rfl := Except.ok.inj h
      obtain ⟨es, rfl, h3⟩ := lisp_shape h1
      exact ⟨es, cut, dropped, h0, hsp, hst, h3⟩
    · rintro ⟨es, body, rest, e, h3, h4, rfl⟩
      rw [unique e h3 h4] at h1
      obtain ⟨f', h5, h6⟩ := lisp_tree es
      have := C29_unambiguous_partial lisp_generated.built (noCollisions_id _ _) lisp_transitions
        (f := f) (f' := f') (by rw [hstart]; exact h1) (by rw [hstart]; exact h5)
      rw [this, h6]
  · refine ⟨fun out => ?_, .inr (no hS)⟩
    rw [no hS]
    constructor
    · intro h; cases h
    · rintro ⟨es, body, rest, e, h3, h4, rfl⟩
      refine absurd ?_ hS
      rw [unique e h3 h4]
      obtain ⟨f, h5, _⟩ := lisp_tree es
      have := sentence_of lisp_generated.expr lisp_generated.ast lisp_generated.first (f := f) (by rw [hstart]; exact h5)
      rw [hstart] at this
      exact this

/-- C63: the parser built from the text of basic_lisp.tlalr, for every iteration order of hash sets
and every hash without collisions, accepts a text exactly if it is a list written with any blanks,
followed by anything that neither a word nor a blank begins; the reductions are then by the rules
that derive the list.  In every other case it stops at an invalid token: there is no other panic,
and it does not run on. -/
theorem C63_parse {H : Type} [DecidableEq H] {hash : List Item → H} {ord : Nfa.Order} (ho : Reorders ord)
    {ps : List Ast.Prod} (hp : FrontEnd.parseGrammar lispText = .ok ps) {g : Grammar} (hg : Grammar.fromAst ps = .ok g)
    (hc : NoCollisions hash g (Lalr.depthOf g)) {l : Lalr} (hl : Lalr.new hash lispRx ord g = .ok l)
    (text : Str) {fuel : Nat} (hf : 8 * (2 * text.length + 1) ≤ fuel) :
    (∀ out, l.parse fuel text = .ok out ↔ ∃ (es : Lisp.Exprs) (body rest : Str), text = body ++ rest ∧
      Lisp.Spaced (Lisp.listWords es) body ∧ Lisp.Stuck rest ∧ out = Lisp.listRules es) ∧
    ((∃ out, l.parse fuel text = .ok out) ∨ l.parse fuel text = .error .invalidToken) := by
  obtain ⟨gen1, gen2, _, gen4⟩ := C59_generated
  have e1 : ps = lispAst := Except.ok.inj (hp.symm.trans gen1)
  rw [e1] at hg
  have e2 : g = lower lispAst := Except.ok.inj (hg.symm.trans gen2)
  rw [e2] at hl hc
  have e3 : l = lispL := Except.ok.inj (hl.symm.trans (gen4 hash ord ho fun lr h => hc lr h))
  rw [e3]
  exact lisp_answer text hf

section
variable {H : Type} [DecidableEq H] {hash : List Item → H} {ord : Nfa.Order} {ps : List Ast.Prod} {g : Grammar} {l : Lalr}

/-- C63: there is no limit on the length or depth of lists: every list, written with a blank after
each word, is parsed, whatever text that no word or blank begins comes after it. -/
theorem C63_written (ho : Reorders ord) (hp : FrontEnd.parseGrammar lispText = .ok ps) (hg : Grammar.fromAst ps = .ok g)
    (hc : NoCollisions hash g (Lalr.depthOf g)) (hl : Lalr.new hash lispRx ord g = .ok l) (es : Lisp.Exprs) {rest : Str}
    (hr : Lisp.Stuck rest) : ∃ n, ∀ fuel, n ≤ fuel →
      l.parse fuel (((Lisp.listWords es).flatMap fun w => w.text ++ [' ']) ++ rest) = .ok (Lisp.listRules es) := by
  refine ⟨_, fun fuel hf => ((C63_parse ho hp hg hc hl _ hf).1 _).mpr ⟨es, _, rest, rfl, ?_, hr, rfl⟩⟩
  generalize Lisp.listWords es = ws
  induction ws with
  | nil => exact .nil
  | cons w ws ih =>
    rw [List.flatMap_cons, List.append_assoc]
    refine .word (fun n _ c hc => ?_) (.blank (.inl rfl) ih)
    simp only [List.singleton_append, List.head?_cons, Option.some.injEq] at hc
    subst hc
    exact fun h => absurd h.1 (by decide)

/-- C63: the two parsers agree.  If, with the files generated for basic_lisp.tlalr,
`Parse<L.Lex<"text">>` has the value `v`, then the parser in the generator accepts the same text,
with the rules of a list that is worth `v`. -/
theorem C63_agree (ho : Reorders ord) (hp : FrontEnd.parseGrammar lispText = .ok ps) (hg : Grammar.fromAst ps = .ok g)
    (hc : NoCollisions hash g (Lalr.depthOf g)) (hl : Lalr.new hash lispRx ord g = .ok l)
    {max : Nat} (hm : 255 ≤ max) {text : Str} (hlt : text.length < max) {v : MiniTs.Ty}
    (hv : TypeIs (userOf lispAst) (genOf max lispL Tests.lispT) .parse (parseOfLex text)
      (.tup [kindValue "SExpr".toList (some v)])) {fuel : Nat} (hf : 8 * (2 * text.length + 1) ≤ fuel) :
    ∃ es, l.parse fuel text = .ok (Lisp.listRules es) ∧ v = Lisp.listTy es := by
  obtain ⟨es, body, tail, h1, h2, h3, _, h5⟩ := ((C59_value hm hlt).1 v).mp hv
  refine ⟨es, ((C63_parse ho hp hg hc hl text hf).1 _).mpr ⟨es, body, tail, h1, h3, ⟨?_, fun w r => tail_noMatch h2⟩, rfl⟩, h5⟩
  simp only [List.mem_cons, List.not_mem_nil, or_false] at h2
  rcases h2 with rfl | rfl | rfl <;> simp

end

theorem spaced_mem {ws : List Lisp.Word} {t : Str} (h : Lisp.Spaced ws t) : ∀ w ∈ ws, ∀ c ∈ w.text, c ∈ t := by
  induction h with
  | nil => simp
  | blank _ _ ih => exact fun w hw c hc => List.mem_cons_of_mem _ (ih w hw c hc)
  | word _ _ ih =>
    intro w hw c hc
    rcases List.mem_cons.mp hw with rfl | hw
    · exact List.mem_append_left _ hc
    · exact List.mem_append_right _ (ih w hw c hc)

-- C63: the hypotheses, and the answers for `(add 34(7))?!` (the end is ignored) and for `(add`.
example : ∀ fuel, 500 ≤ fuel →
    lispL.parse fuel ['(', 'a', 'd', 'd', ' ', '3', '4', '(', '7', ')', ')', '?', '!'] = .ok [5, 6, 6, 3, 1, 4, 3, 2, 2, 1] ∧
    lispL.parse fuel ['(', 'a', 'd', 'd'] = .error .invalidToken := by
  obtain ⟨gen1, gen2, _, gen4⟩ := C59_generated
  have hl := gen4 id (fun _ l => l) reorders_id (fun lr _ => collisionFree_id lr)
  intro fuel hf
  have nd : ∀ c : Char, c.toNat < 48 → ¬ Lisp.Digit c := fun c h h' => absurd h'.1 (by have : '0'.toNat = 48 := by decide
                                                                                       omega)
  constructor
  · refine ((C63_parse reorders_id gen1 gen2 (noCollisions_id _ _) hl _ (Nat.le_trans (by decide) hf)).1 _).mpr
      ⟨.cons .add (.cons (.int 33) (.one (.list (.one (.int 6))))), ['(', 'a', 'd', 'd', ' ', '3', '4', '(', '7', ')', ')'], ['?', '!'],
        rfl, ?_, ⟨by simp, fun w r h => ?_⟩, rfl⟩
    · refine .word (w := .lpar) (by simp) (.word (w := .add) (by simp) (.blank (.inl rfl) ?_))
      refine .word (w := .int 33) (fun n _ c h => by cases h; exact nd _ (by decide)) (.word (w := .lpar) (by simp) ?_)
      exact .word (w := .int 6) (fun n _ c h => by cases h; exact nd _ (by decide)) (.word (w := .rpar) (by simp)
        (.word (w := .rpar) (by simp) .nil))
    · cases w with
      | int n =>
        obtain ⟨c, ds, h1, h2, _⟩ := int_number n
        rw [h1] at h
        simp only [List.cons_append, List.cons.injEq] at h
        rw [← h.1] at h2
        exact absurd h2 (by decide)
      | _ => simp [Lisp.Word.text] at h
  · have := C63_parse reorders_id gen1 gen2 (noCollisions_id _ _) hl ['(', 'a', 'd', 'd'] (fuel := fuel) (Nat.le_trans (by decide) hf)
    rcases this.2 with ⟨out, h⟩ | h
    · obtain ⟨es, body, rest, h1, h2, h3, _⟩ := (this.1 out).mp h
      have : ')' ∈ ['(', 'a', 'd', 'd'] := by
        rw [h1]
        exact List.mem_append_left _ (spaced_mem h2 .rpar (by simp [Lisp.listWords]) ')' (by simp [Lisp.Word.text]))
      exact absurd this (by decide)
    · exact h

end Verif.Props
