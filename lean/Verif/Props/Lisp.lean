import Verif.Proofs.LispTrees
import Verif.Props.Determinism
import Verif.Props.TsFiles
import Verif.Tests.Lisp

/-! # Property C59: the grammar of the project, from the text to the type

The files generated for basic_lisp.tlalr, with ts/util.ts, ts/lex.ts and ts/parse.ts, parse the
language of `Verif.Spec.Lisp`. -/

namespace Verif.Props
open Verif Spec MiniTs
open Verif.Tests (lispT)

theorem lisp_generated : Generated id lispRx (fun _ l => l) lispAst (startOf lispAst) (lower lispAst) lispL :=
  ⟨expressibleB_sound (by decide +kernel), startOf_eq (by decide +kernel), ok_of_isSome (by decide +kernel),
    lisp_new⟩

theorem lisp_kinds : DistinctKinds (lower lispAst) := by
  refine ⟨lisp_distinct, ?_⟩
  rw [lisp_tokens]
  intro s hs
  simp only [List.mem_cons, List.not_mem_nil, or_false] at hs
  rcases hs with rfl | rfl | rfl | rfl | rfl | rfl | rfl | rfl <;> intro h <;> first | exact False.elim h | decide

theorem lisp_emitted {max : Nat} (hm : 255 ≤ max) :
    Emitted id lispRx (fun _ l => l) lispAst (startOf lispAst) (lower lispAst) lispL lispT max := by
  refine ⟨lisp_generated, ok_of_isSome (by decide +kernel), namesOkB_sound (by decide +kernel), lisp_kinds, ?_⟩
  have : ∀ p ∈ (lower lispAst).prods, p.inputs.length ≤ 255 := by decide +kernel
  exact fun p hp => Nat.le_trans (this p hp) hm

theorem lisp_tsNames : TsNames lispAst := by
  have first : ∀ p ∈ lispAst, p.name.head? ∈ [some 'S', some 'E'] := by decide
  refine ⟨by decide, by decide, ?_, by decide, ?_, ?_, by decide, ?_⟩
  · intro p hp i h
    have := first p hp
    rw [h] at this
    revert this
    simp
  · intro p hp i h
    have := first p hp
    rw [h] at this
    revert this
    simp
  · intro p hp i h
    have := first p hp
    rw [h] at this
    revert this
    simp
  · have : ∀ p ∈ lispAst, ∀ b ∈ p.bodies, ∀ s ∈ b.inputs,
        (match s with | .named _ (.nonTerm k) => decide (k ∈ lispAst.map (·.name)) | _ => true) = true := by decide
    intro p hp b hb n k h
    have := this p hp b hb _ h
    simp only [decide_eq_true_eq] at this
    obtain ⟨q, hq, rfl⟩ := List.mem_map.mp this
    exact ⟨q, hq, rfl⟩

theorem lisp_noHiding : NoHiding lispAst := noHidingB_sound (by decide +kernel)

theorem lisp_transitions : AllTransitions (lower lispAst) lispL.states lispL.action lispL.goto :=
  transitions_of lisp_generated.built (noCollisions_id _ _) (ok_of_isSome (d := []) (by decide +kernel)) (by decide +kernel)

theorem lisp_atoms : AtomsOk (lispDefs.map Prod.snd) :=
  atomsOk_of (al := [⟨40, 41⟩, ⟨41, 42⟩, ⟨48, 49⟩, ⟨49, 58⟩, ⟨97, 98⟩, ⟨100, 101⟩]) rfl (by decide +kernel)

theorem lisp_nonVoid : ∀ p ∈ lispDefs, NonVoid p.2 := by
  intro p hp
  simp only [lispDefs, List.mem_cons, List.not_mem_nil, or_false] at hp
  have cls : ∀ a : Char, ∀ b, a.toNat ≤ b → NonVoid (.cls [(a.toNat, b)]) := fun a b hb =>
    .cls (by simp) fun r hr => by
      simp only [List.mem_cons, List.not_mem_nil, or_false] at hr
      subst hr
      exact ⟨a, Nat.le_refl _, hb⟩
  rcases hp with rfl | rfl | rfl | rfl
  · exact .lit '('
  · exact .lit ')'
  · refine .concat fun h hh => ?_
    simp only [List.mem_cons, List.not_mem_nil, or_false] at hh
    rcases hh with rfl | rfl | rfl
    · exact .lit 'a'
    · exact .lit 'd'
    · exact .lit 'd'
  · refine .concat fun h hh => ?_
    simp only [List.mem_cons, List.not_mem_nil, or_false] at hh
    rcases hh with rfl | rfl
    · exact .rep (cls '1' 57 (by decide))
    · exact .rep (cls '0' 57 (by decide))

theorem lisp_covered {max : Nat} (hm : 255 ≤ max) {input : Str} (hl : input.length < max) :
    Covered max (LexGen.Tables.new lispL.lexer) input := by
  have h1 : ∀ st ∈ (LexGen.Tables.new lispL.lexer).states, st.to.length ≤ 255 := by decide +kernel
  have h2 : ∀ st ∈ (LexGen.Tables.new lispL.lexer).states, ∀ r ∈ st.labels, r.1 ≤ 255 := by decide +kernel
  exact ⟨hm, by omega, fun st hst => Nat.le_trans (h1 st hst) hm, fun st hst r hr => Nat.le_trans (h2 st hst r hr) hm⟩

theorem word_supported (x : Lisp.Word) : ∀ c ∈ x.text, (LexGen.charCode c).isSome = true := by
  have hall : ∀ c ∈ ['(', ')', 'a', 'd', '0', '1', '2', '3', '4', '5', '6', '7', '8', '9', ' ', '\n'],
      (LexGen.charCode c).isSome = true := by rw [charCode_fun]; decide +kernel
  intro c hc
  have hdig : ∀ c, Lisp.Digit c → (LexGen.charCode c).isSome = true := by
    intro c hd
    obtain ⟨h1, h2⟩ := digit_char hd
    rw [← h2]
    have : ∀ d : Fin 10, Nat.digitChar d.val ∈ ['(', ')', 'a', 'd', '0', '1', '2', '3', '4', '5', '6', '7', '8', '9', ' ', '\n'] := by decide
    exact hall _ (this ⟨_, h1⟩)
  cases x with
  | lpar => exact hall c (by simp [Lisp.Word.text] at hc; simp [hc])
  | rpar => exact hall c (by simp [Lisp.Word.text] at hc; simp [hc])
  | add => exact hall c (by simp [Lisp.Word.text] at hc; rcases hc with rfl | rfl <;> simp)
  | int n =>
    obtain ⟨a, ds, h1, h2, h3⟩ := int_number n
    rw [h1] at hc
    rcases List.mem_cons.mp hc with rfl | hc
    · exact hdig _ ⟨Nat.le_trans (by decide) h2.1, h2.2⟩
    · exact hdig c (h3 c hc)

theorem spaced_supported {ws : List Lisp.Word} {t : Str} (h : Lisp.Spaced ws t) : ∀ c ∈ t, (LexGen.charCode c).isSome = true := by
  have hall : ∀ c ∈ [' ', '\n'], (LexGen.charCode c).isSome = true := by rw [charCode_fun]; decide +kernel
  induction h with
  | nil => simp
  | blank hb _ ih =>
    intro c hc
    rcases List.mem_cons.mp hc with rfl | hc
    · exact hall _ (by simpa using hb)
    · exact ih c hc
  | @word w _ _ _ _ ih =>
    intro c hc
    rcases List.mem_append.mp hc with hc | hc
    · exact word_supported w c hc
    · exact ih c hc

theorem pieced_syms {out : List (Nat × Nat × Str)} {xs : List Lisp.Word} (h : Pieced out xs) :
    out.map (pieceSym (lower lispAst) lispDefs) = (xs.map wordSym).map some ∧ out.map (·.2.2) = xs.map (·.text) := by
  induction out generalizing xs with
  | nil =>
    cases xs with
    | nil => exact ⟨rfl, rfl⟩
    | cons x xs => simp [Pieced] at h
  | cons p out ih =>
    cases xs with
    | nil => simp [Pieced] at h
    | cons x xs =>
      simp only [Pieced, List.map_cons, List.cons.injEq] at h
      obtain ⟨h1, h2⟩ := ih h.2
      have hp : p.2.1 = wordIdx x ∧ p.2.2 = x.text := by rw [h.1]; exact ⟨rfl, rfl⟩
      refine ⟨?_, by rw [List.map_cons, List.map_cons, h2, hp.2]⟩
      rw [List.map_cons, List.map_cons, List.map_cons, h1]
      congr 1
      unfold pieceSym
      rw [hp.1, lisp_tokens]
      cases x <;> rfl

/-- C59: with the files generated for basic_lisp.tlalr, `Parse<L.Lex<"text">>` is
`[{ kind: "SExpr", value: v }]` exactly if the text is a list written with any blanks,
possibly followed by the beginning `a` or `ad` of a word, `v` is the type of this list, and the
list is not too long; else it is one of two messages. -/
theorem C59_value {max : Nat} (hm : 255 ≤ max) {text : Str} (hl : text.length < max) :
    (∀ v, TypeIs (userOf lispAst) (genOf max lispL lispT) .parse (parseOfLex text)
        (.tup [kindValue "SExpr".toList (some v)]) ↔
      ∃ (es : Lisp.Exprs) (body tail : Str), text = body ++ tail ∧ tail ∈ [[], ['a'], ['a', 'd']] ∧
        Lisp.Spaced (Lisp.listWords es) body ∧ 3 * es.atoms + 5 * es.lists < 47 ∧ v = Lisp.listTy es) ∧
    ((∃ v, TypeIs (userOf lispAst) (genOf max lispL lispT) .parse (parseOfLex text)
        (.tup [kindValue "SExpr".toList (some v)])) ∨
      TypeIs (userOf lispAst) (genOf max lispL lispT) .parse (parseOfLex text) (.str "exceeded max recursion depth".toList) ∨
      ∃ m ts, TypeIs (userOf lispAst) (genOf max lispL lispT) .parse (parseOfLex text)
        (.tup [.str ("error: invalid token ".toList ++ m), .tup ts])) := by
  have hspaced : ∀ {es : Lisp.Exprs} {body tail : Str}, text = body ++ tail → tail ∈ [[], ['a'], ['a', 'd']] →
      Lisp.Spaced (Lisp.listWords es) body → ∀ c ∈ text, (LexGen.charCode c).isSome = true := by
    rintro es body tail rfl ht hs c hc
    rcases List.mem_append.mp hc with hc | hc
    · exact spaced_supported hs c hc
    · have : c ∈ Lisp.Word.text .add := by
        simp only [List.mem_cons, List.not_mem_nil, or_false] at ht
        rcases ht with rfl | rfl | rfl <;> simp at hc <;> simp [Lisp.Word.text, hc]
      exact word_supported .add c this
  have hundef : ∀ {v t : Ty}, t = .tup [.str "error: invalid token undefined".toList, .tup []] →
      t ≠ .tup [kindValue "SExpr".toList (some v)] := by
    rintro v t rfl h
    simp [kindValue] at h
  have hstart : (startOf lispAst).name = "SExpr".toList := by decide +kernel
  by_cases hsup : ∀ c ∈ text, (LexGen.charCode c).isSome = true
  · obtain ⟨out, err, b1, b2, b3⟩ := C58_value_partial (U := lispUser) (lisp_emitted hm) reorders_id lisp_tsNames lisp_typed
      lisp_noHiding (noCollisions_id _ _) lisp_defs lisp_atoms lisp_nonVoid (lisp_covered hm hl) hl hsup
    rw [hstart] at b3
    rcases b3 with ⟨i, c, rfl, _, hp⟩ | ⟨rfl, ws, hws, hval, htot⟩
    · refine ⟨fun v => ⟨fun h => absurd rfl (hundef ((hp _).mp h)), ?_⟩,
        .inr (.inr ⟨"undefined".toList, [], (hp _).mpr rfl⟩)⟩
      rintro ⟨es, body, tail, rfl, ht, hs, _⟩
      obtain ⟨out', h, _⟩ := spaced_scan hs ht 0
      exact absurd (b2 _ _ h).2 (by simp)
    · refine ⟨fun v => (hval v).trans ?_, ?_⟩; swap
      · rcases htot with h | h | h | ⟨_, h⟩
        · exact .inl h
        · exact .inr (.inl h)
        · exact .inr (.inr h)
        · exact absurd lisp_transitions h
      obtain ⟨xs, body, tail, rfl, ht, hs, hpc⟩ := scan_spaced b1
      obtain ⟨hy, htx⟩ := pieced_syms hpc
      obtain rfl : ws = xs.map wordSym :=
        List.map_injective_iff.mpr (fun _ _ h => Option.some.inj h) (hws.symm.trans hy)
      rw [htx]
      constructor
      · rintro ⟨f, h1, _, h2, h3⟩
        obtain ⟨es, rfl, rfl, hn⟩ := lisp_trees.mp ⟨f, h1, rfl, h3⟩
        refine ⟨es, body, tail, rfl, ht, hs, ?_, rfl⟩
        have := countEs es
        rw [hn] at h2
        simp only [Lisp.listWords, List.length_map, List.length_append, List.length_cons, List.length_nil] at h2
        omega
      · rintro ⟨es, body', tail', hb, ht', hs', hlt, rfl⟩
        obtain ⟨out', h, hpc'⟩ := spaced_scan hs' ht' 0
        rw [← hb] at h
        obtain ⟨rfl, _⟩ := b2 _ _ h
        obtain ⟨hy', htx'⟩ := pieced_syms hpc'
        have hwords : xs.map wordSym = (Lisp.listWords es).map wordSym :=
          List.map_injective_iff.mpr (fun _ _ h => Option.some.inj h) (hy.symm.trans hy')
        rw [hwords, htx.symm.trans htx']
        obtain ⟨f, h1, h2, h3⟩ := lisp_trees.mpr ⟨es, rfl, rfl, rfl⟩
        refine ⟨f, h1, C66_all (lisp_emitted hm).gen.built (noCollisions_id _ _) lisp_transitions h1, ?_, h3⟩
        have := countEs es
        rw [h2]
        simp only [Lisp.listWords, List.length_map, List.length_append, List.length_cons, List.length_nil]
        omega
  · have hex : ∃ c ∈ text, LexGen.charCode c = none := by
      by_contra h
      refine hsup fun c hc => ?_
      rw [Option.isSome_iff_ne_none]
      exact fun hn => h ⟨c, hc, hn⟩
    have hp := C58_unsupported (U := lispUser) (lisp_emitted hm) reorders_id hex
    refine ⟨fun v => ⟨fun h => absurd rfl (hundef ((hp _).mp h)), ?_⟩,
      .inr (.inr ⟨"undefined".toList, [], (hp _).mpr rfl⟩)⟩
    rintro ⟨es, body, tail, h, ht, hs, _⟩
    exact absurd (hspaced h ht hs) hsup

/-- C45: the parser is a function of the grammar: whatever the order in which hash sets are
iterated and whatever the hash of cores, if it has no collision. -/
theorem C45_new {ps : List Ast.Prod} (he : Expressible ps) {g : Grammar} (hg : Grammar.fromAst ps = .ok g)
    {H H' : Type} [DecidableEq H] [DecidableEq H'] {hash : List Item → H} {hash' : List Item → H'}
    (hh : ∀ lr, ItemSet.items g (Lalr.depthOf g) = .ok lr → CollisionFree hash lr)
    (hh' : ∀ lr, ItemSet.items g (Lalr.depthOf g) = .ok lr → CollisionFree hash' lr)
    {ord ord' : Nfa.Order} (ho : Reorders ord) (ho' : Reorders ord') (rx : Str → Option Hir) :
    Lalr.new hash rx ord g = Lalr.new hash' rx ord' g := by
  unfold Lalr.new Grammar.lexer
  rw [C45_tables he hg _ hh hh']
  cases Grammar.tokenDefs rx 0 g.tokens with
  | error e => rfl
  | ok ts => simp only [bind, Except.bind, C45_lexer ho ho']

/-- C59: these are the files the program generates from the text of basic_lisp.tlalr, for every
iteration order of hash sets and every hash of cores without collision. -/
theorem C59_generated : FrontEnd.parseGrammar lispText = .ok lispAst ∧ Grammar.fromAst lispAst = .ok (lower lispAst) ∧
    ParseGen.generate lispAst lispL = .ok lispT ∧
    ∀ {H : Type} [DecidableEq H] (hash : List Item → H) (ord : Nfa.Order), Reorders ord →
      (∀ lr, ItemSet.items (lower lispAst) (Lalr.depthOf (lower lispAst)) = .ok lr → CollisionFree hash lr) →
      Lalr.new hash lispRx ord (lower lispAst) = .ok lispL :=
  ⟨lisp_parse, lisp_generated.ast, ok_of_isSome (by decide +kernel), fun _ _ ho hh =>
    (C45_new lisp_generated.expr lisp_generated.ast hh (fun lr _ => collisionFree_id lr) ho reorders_id lispRx).trans
      lisp_new⟩

/-- C59: a list written with a blank after each word has its type as value. -/
theorem C59_written {max : Nat} (hm : 255 ≤ max) (es : Lisp.Exprs) (hn : 3 * es.atoms + 5 * es.lists < 47)
    (hl : ((Lisp.listWords es).flatMap fun w => w.text ++ [' ']).length < max) :
    TypeIs (userOf lispAst) (genOf max lispL lispT) .parse
      (parseOfLex ((Lisp.listWords es).flatMap fun w => w.text ++ [' ']))
      (.tup [kindValue "SExpr".toList (some (Lisp.listTy es))]) := by
  have hs : ∀ ws : List Lisp.Word, Lisp.Spaced ws (ws.flatMap fun w => w.text ++ [' ']) := by
    intro ws
    induction ws with
    | nil => exact .nil
    | cons w ws ih =>
      rw [List.flatMap_cons, List.append_assoc]
      refine .word (fun n _ c hc => ?_) (.blank (.inl rfl) ih)
      simp only [List.singleton_append, List.head?_cons, Option.some.injEq] at hc
      subst hc
      exact fun h => absurd h.1 (by decide)
  exact ((C59_value hm hl).1 _).mpr ⟨es, _, [], by simp, by simp, hs _, hn, rfl⟩

-- C59: a list with a list in it, written without needless blanks, and its value.
example : TypeIs (userOf lispAst) (genOf 255 lispL lispT) .parse
    (parseOfLex ['(', 'a', 'd', 'd', ' ', '3', '4', '(', 'a', 'd', 'd', '3', '5', ')', ')'])
    (.tup [kindValue "SExpr".toList (some (Lisp.record [("kind", .str "SExpr".toList), ("exprs", .tup [
      Lisp.record [("kind", .str "symbol".toList), ("value", .str "add".toList)],
      Lisp.record [("kind", .str "int".toList), ("value", .str ['3', '4'])],
      Lisp.record [("kind", .str "sexpr".toList), ("sexpr", Lisp.record [("kind", .str "SExpr".toList),
        ("exprs", .tup [Lisp.record [("kind", .str "symbol".toList), ("value", .str "add".toList)],
          Lisp.record [("kind", .str "int".toList), ("value", .str ['3', '5'])]])])]])]))]) := by
  refine ((C59_value (Nat.le_refl _) (by decide)).1 _).mpr
    ⟨.cons .add (.cons (.int 33) (.one (.list (.cons .add (.one (.int 34)))))), _, [], (List.append_nil _).symm, by simp,
      ?_, by decide, rfl⟩
  refine .word (w := .lpar) (by simp) (.word (w := .add) (by simp) (.blank (.inl rfl)
    (.word (w := .int 33) ?_ (.word (w := .lpar) (by simp) (.word (w := .add) (by simp)
      (.word (w := .int 34) ?_ (.word (w := .rpar) (by simp) (.word (w := .rpar) (by simp) .nil))))))))
  · rintro n _ c hc
    cases hc
    exact fun h => absurd h.1 (by decide)
  · rintro n _ c hc
    cases hc
    exact fun h => absurd h.1 (by decide)

-- C59: the `ad` after the list is dropped without a message.
example : TypeIs (userOf lispAst) (genOf 255 lispL lispT) .parse (parseOfLex ['(', 'a', 'd', 'd', ')', 'a', 'd'])
    (.tup [kindValue "SExpr".toList (some (Lisp.listTy (.one .add)))]) :=
  ((C59_value (Nat.le_refl _) (by decide)).1 _).mpr ⟨.one .add, ['(', 'a', 'd', 'd', ')'], ['a', 'd'], rfl, by simp,
    .word (w := .lpar) (by simp) (.word (w := .add) (by simp) (.word (w := .rpar) (by simp) .nil)), by decide, rfl⟩

-- C45, C59: a hash without collision on this grammar.
example : Reorders (fun _ l => l) ∧
    ∀ lr, ItemSet.items (lower lispAst) (Lalr.depthOf (lower lispAst)) = .ok lr → CollisionFree (id : List Item → _) lr :=
  ⟨reorders_id, fun lr _ => collisionFree_id lr⟩

end Verif.Props
