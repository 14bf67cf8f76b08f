import Verif.Proofs.TsGenActs

/-! # The generated parser, read as TypeScript -/

namespace Verif.Spec.TsProject
open Verif MiniTs TsSyntax LexGen ParseGen

theorem under_free (n : Str) : "__".toList ++ n ∉ reserved := dotted_free (by decide)

theorem rd_cond_of {c : Cond} (h : CondOk c) {ws ws1 r : List Word} {t f : Exp} (h3 : Rd TsSyntax.type ws t (.punct ':' :: ws1))
    (h4 : Rd TsSyntax.type ws1 f r) :
    Rd TsSyntax.type (condW c ++ .punct '?' :: ws) (.cond (condExp c).1 (condExp c).2 t f) r := by
  cases c with
  | nonTerm n k =>
    obtain ⟨-, -, h2⟩ := h
    simp only [condW, List.cons_append, List.nil_append]
    refine rd_cond (ws1 := _) (rd_refU (under_free n) rfl rfl rfl) (rd_union1 (rd_objP (rd_mem_id (rd_prim rd_str rfl rfl rfl)
      (rd_mems_comma (rd_mem_id (rd_type (rd_union1 (rd_inferExt (rd_refU h2 rfl rfl rfl)) rfl rfl) rfl) rd_mems_nil))) rfl) rfl rfl) h3 h4
  | isToken n =>
    simp only [condW, List.cons_append, List.nil_append]
    exact rd_cond (rd_refU (under_free n) rfl rfl rfl) (rd_union1 (rd_objP (rd_mem_id (rd_prim rd_str rfl rfl rfl)
      (rd_mems_comma (rd_mem_id (rd_refT (by decide) rfl rfl) rd_mems_nil))) rfl) rfl rfl) h3 h4
  | lit n s =>
    simp only [condW, List.cons_append, List.nil_append]
    exact rd_cond (rd_union1 (rd_prefix (rd_ref (keyword_free (under_free n)) rfl) (noPrefix_free (under_free n))
      (rd_idx_str (rd_idx_str (rd_idx_nil rfl)))) rfl rfl)
      (rd_union1 (rd_inferExt (rd_union1 (rd_prefix rd_str rfl (rd_idx_nil rfl)) rfl rfl)) rfl rfl) h3 h4
  | text n => exact h.elim

theorem msgText_ne (m : Msg) : msgText m ≠ [] := by
  cases m
  · rw [msgText_inv]; exact List.append_ne_nil_of_left_ne_nil (by decide) _
  · rw [msgText_not]; exact List.append_ne_nil_of_left_ne_nil (by decide) _

/-- The words of a message without the colon. -/
theorem msgW_eq (m : Msg × Bool) : ∃ w, msgW m = .punct ':' :: w ∧
    ∀ r, ends r = true → Rd TsSyntax.type (w ++ r) (.lit (.str (msgText m.1))) r := by
  obtain ⟨m, b⟩ := m
  have hc : ∀ r, ends r = true → Rd TsSyntax.type ([.tick, .chunk (msgText m), .tock] ++ r) (.lit (.str (msgText m))) r :=
    fun r hr => rd_prim (rd_chunk (msgText_ne m)) rfl rfl hr
  cases m with
  | invalidSymbol p a =>
    cases b with
    | true => exact ⟨[.str (msgText (.invalidSymbol p a))], rfl, fun r hr => rd_prim rd_str rfl rfl hr⟩
    | false => exact ⟨_, rfl, hc⟩
  | notToken p a => exact ⟨[.tick, .chunk (msgText (.notToken p a)), .tock], rfl, hc⟩

theorem rd_conds {result : Exp} {call : List Word} (hcall : ∀ r, ends r = true → Rd TsSyntax.type (call ++ r) result r) :
    ∀ (cs : List Cond) (ms : List (Msg × Bool)), (∀ c ∈ cs, CondOk c) → cs.length = ms.length → ∀ r, ends r = true →
    Rd TsSyntax.type ((cs.flatMap fun c => condW c ++ [.punct '?']) ++ (call ++ (ms.flatMap msgW ++ r))) (condsExp result cs (ms.map (·.1))) r
  | [], ms, _, hl, r, hr => by
    obtain rfl : ms = [] := List.length_eq_zero_iff.mp (by simpa using hl.symm)
    exact hcall r hr
  | c :: cs, ms, hc, hl, r, hr => by
    have hne : ms ≠ [] := by rintro rfl; simp at hl
    obtain ⟨init, m, rfl⟩ : ∃ init m, ms = init ++ [m] := ⟨ms.dropLast, ms.getLast hne, (List.dropLast_concat_getLast hne).symm⟩
    obtain ⟨w, hw, hm⟩ := msgW_eq m
    have ih := rd_conds hcall cs init (fun c hc' => hc c (by simp [hc'])) (by simpa using hl) (.punct ':' :: (w ++ r)) rfl
    have e : condsExp result (c :: cs) ((init ++ [m]).map (·.1)) =
        .cond (condExp c).1 (condExp c).2 (condsExp result cs (init.map (·.1))) (.lit (.str (msgText m.1))) := by
      simp [condsExp]
    rw [e]
    have e2 : ((c :: cs).flatMap fun c => condW c ++ [.punct '?']) ++ (call ++ ((init ++ [m]).flatMap msgW ++ r)) =
        condW c ++ .punct '?' :: ((cs.flatMap fun c => condW c ++ [.punct '?']) ++ (call ++ (init.flatMap msgW ++ .punct ':' :: (w ++ r)))) := by
      simp [hw]
    rw [e2]
    exact rd_cond_of (hc c (by simp)) ih (hm r hr)

theorem rd_inferNames {r : List Word} : ∀ xs : List Str,
    Rd elems (inferW xs ++ .punct ']' :: r) (inferExps xs) r
  | [] => rd_elems_nil
  | x :: xs => by
    have ih := rd_inferNames (r := r) xs
    have e : inferW (x :: xs) ++ .punct ']' :: r = .id "infer".toList :: .id x :: .punct ',' :: (inferW xs ++ .punct ']' :: r) := by
      simp [inferW]
    rw [e]
    exact rd_elems (rd_type (rd_union1 (rd_infer rfl) rfl rfl) rfl) rfl (rd_elems_comma ih)

/-- A text that is a type. -/
theorem readType_words {text : Str} {e : Exp} (h : readType text = some e) :
    TsSyntax.scan text = some (wordsOf text) ∧ readD text = e ∧
      ∀ s, stops s = true → Rd TsSyntax.type (wordsOf text ++ s) e s := by
  refine ⟨?_, by unfold readD; rw [h]; rfl, ?_⟩
  · unfold readType at h
    unfold wordsOf
    cases hs : TsSyntax.scan text with
    | none => rw [hs] at h; cases h
    | some ws => rfl
  · intro s hst
    unfold readType at h
    unfold wordsOf
    cases hs : TsSyntax.scan text with
    | none => rw [hs] at h; cases h
    | some ws =>
      rw [hs] at h
      simp only [Option.bind_some] at h
      split at h
      · next e' h' =>
        obtain rfl := Option.some.inj h
        exact rd_append h' hst
      · cases h

theorem rd_call {a : Act} {e : Exp} (h : readType a.code = some e) {r : List Word} (hr : ends r = true) :
    Rd TsSyntax.type (callW a (wordsOf a.code) ++ r) (callWith e a) r := by
  have h1 := (readType_words h).2.2 (.punct '}' :: .punct ',' :: .punct '.' :: .punct '.' :: .punct '.' :: .id "newStack".toList ::
    .punct ']' :: r) rfl
  unfold callW callWith
  simp only [List.cons_append, List.nil_append, List.append_assoc]
  exact rd_prim (rd_tup (rd_elems (rd_prim (rd_obj (rd_mem_id (rd_prim rd_str rfl rfl rfl) (rd_mems_comma (rd_mem_id h1 rd_mems_nil))))
    rfl rfl rfl) rfl (rd_elems_comma (rd_elems_spread (rd_refT (by decide) rfl rfl) rd_elems_nil)))) rfl rfl hr

theorem quotes_length (a : Act) : (validate a).1.length = (validate a).2.length ∧
    (validate a).2.length = (a.inputs.flatMap paramQuotes).length := by
  unfold validate
  suffices ∀ (ps : List Param) (i k : Nat), (checks k i ps).1.length = (checks k i ps).2.length ∧
      (checks k i ps).2.length = (ps.flatMap paramQuotes).length from this _ _ _
  intro ps
  induction ps with
  | nil => intro i k; exact ⟨rfl, rfl⟩
  | cons p ps ih =>
    intro i k
    obtain ⟨h1, h2⟩ := ih (i + 1) k
    have h3 : (paramChecks k (i + 1) p).1.length = (paramChecks k (i + 1) p).2.length ∧
        (paramChecks k (i + 1) p).2.length = (paramQuotes p).length := by
      rcases p with ⟨n, q⟩ | s | s | s
      · cases q <;> exact ⟨rfl, rfl⟩
      · exact ⟨rfl, rfl⟩
      · exact ⟨rfl, rfl⟩
      · exact ⟨rfl, rfl⟩
    simp only [checks, List.length_append, List.flatMap_cons]
    exact ⟨by rw [h1, h3.1], by rw [h2, h3.2]⟩

theorem pop_apply (es : Exps) (t u : Exp) : apply "U.PopNStackWithValue".toList (.cons .elem t (.cons .elem u es)) =
    .ref "U.PopNStackWithValue".toList (.cons .elem t (.cons .elem u es)) := rfl

theorem rd_symbolArr {r : List Word} (hr : noPunct '[' r = true) (hr' : noPunct '|' r = true) :
    Rd unionType (.id "type_defs.Symbol".toList :: .punct '[' :: .punct ']' :: r) (.arr (.ref "type_defs.Symbol".toList .nil)) r :=
  rd_union1 (rd_prefix (rd_ref (by decide) rfl) rfl (rd_idx_arr (rd_idx_nil hr))) rfl hr'

theorem al_act {a : Act} {e : Exp} (hok : ActOk a (wordsOf a.code)) (h : readType a.code = some e) {r rest : List Word} {ds : List Decl}
    (hr : ends r = true) (hd : Rd aliases r ds rest) :
    Rd aliases (actW a (wordsOf a.code) ++ r) ((actName a.idx, ["symbolStack".toList], actWith (callWith e a) a) :: ds) rest := by
  obtain ⟨l1, l2⟩ := quotes_length a
  have hms : (msgsOf a).map (·.1) = (validate a).2 := by
    unfold msgsOf
    rw [List.map_fst_zip (by omega)]
  have hconds : ∀ r, ends r = true → Rd TsSyntax.type (((validate a).1.flatMap fun c => condW c ++ [.punct '?']) ++
      (callW a (wordsOf a.code) ++ ((msgsOf a).flatMap msgW ++ r))) (condsExp (callWith e a) (validate a).1 (validate a).2) r := by
    intro r hr
    have := rd_conds (result := callWith e a) (call := callW a (wordsOf a.code)) (fun r hr => rd_call h hr) (validate a).1 (msgsOf a)
      hok.conds (by unfold msgsOf; rw [List.length_zip]; omega) r hr
    rwa [hms] at this
  have e1 : ∀ r, Rd primary (.tick :: .chunk ("unreachable: `newStack` should always be a type_defs.Symbol[] (Action".toList ++
      (digits a.idx ++ ")".toList)) :: .tock :: r) _ r := fun r => rd_chunk (List.append_ne_nil_of_left_ne_nil (by decide +kernel) _)
  have e2 : ∀ r, Rd primary (.tick :: .chunk ("error: popping off symbol Stack Action".toList ++ digits a.idx) :: .tock :: r) _ r :=
    fun r => rd_chunk (List.append_ne_nil_of_left_ne_nil (by decide +kernel) _)
  have t3 := hconds (.punct ':' :: .tick :: .chunk ("unreachable: `newStack` should always be a type_defs.Symbol[] (Action".toList ++
      (digits a.idx ++ ")".toList)) :: .tock ::
      .punct ':' :: .tick :: .chunk ("error: popping off symbol Stack Action".toList ++ digits a.idx) :: .tock ::
      .punct ':' :: .str "unreachable: inferring popped values never fails".toList :: r) rfl
  have t2 := rd_cond (rd_refU (x := "newStack".toList) (by decide) rfl rfl rfl) (rd_symbolArr rfl rfl) t3 (rd_prim (e1 _) rfl rfl rfl)
  have t1 := rd_cond (rd_refU (x := "poppedValues".toList) (by decide) rfl rfl rfl) (rd_union1 (rd_prefix (rd_tup (rd_inferNames
    (inferNames 0 a.inputs))) rfl (rd_idx_nil rfl)) rfl rfl) t2 (rd_prim (e2 _) rfl rfl rfl)
  have pop : ∀ r, Rd primary (.id "U.PopNStackWithValue".toList :: .punct '<' ::
    .id "symbolStack".toList :: .punct ',' :: .num a.inputs.length :: .punct '>' :: r) _ r := fun r =>
    rd_app (rd_args (rd_refT (by decide) rfl rfl) rfl rfl (rd_args_comma (rd_args (rd_prim rd_num rfl rfl rfl) rfl rfl rd_args_nil)))
  have pair : ∀ r, Rd primary (.punct '[' :: .id "infer".toList :: .id "newStack".toList :: .punct ',' :: .id "infer".toList ::
    .id "poppedValues".toList :: .punct ']' :: r) _ r := fun r =>
    rd_tup (rd_elems (rd_type (rd_union1 (rd_infer rfl) rfl rfl) rfl) rfl (rd_elems_comma (rd_elems
      (rd_type (rd_union1 (rd_infer rfl) rfl rfl) rfl) rfl rd_elems_nil)))
  have t0 := rd_cond (rd_union1 (rd_prefix (pop _) rfl (rd_idx_nil rfl)) rfl rfl) (rd_union1 (rd_prefix (pair _) rfl (rd_idx_nil rfl)) rfl rfl) t1
    (rd_prim (rd_str (s := "unreachable: inferring popped values never fails".toList)) rfl rfl hr)
  unfold actW
  simp only [List.cons_append, List.nil_append, List.append_assoc]
  have := al_params (x := "Action".toList ++ digits a.idx) (pa_extends (x := "symbolStack".toList) (rd_symbolArr rfl rfl) rfl pa_nil) t0 hd
  exact this


theorem rd_emitEnd {r : List Word} (hr : ends r = true) :
    Rd TsSyntax.type (.tick :: .chunk "error: invalid production idx: ".toList :: .hole :: .id "prodIdx".toList :: .holeEnd ::
      .chunk [] :: .tock :: r) (emitExp []) r := by
  obtain ⟨k, h⟩ := rd_refT (x := "prodIdx".toList) (r := .holeEnd :: .chunk [] :: .tock :: r) (by decide) rfl rfl
  refine rd_prim (Rd.step ⟨k + 5, fun n hn => ?_⟩) rfl rfl hr
  obtain ⟨m, rfl⟩ : ∃ m, n = m + 4 := ⟨n - 4, by omega⟩
  have hp : parts (m + 4) (.chunk "error: invalid production idx: ".toList :: .hole :: .id "prodIdx".toList :: .holeEnd ::
      .chunk [] :: .tock :: r) = some (.cons .elem (.lit (.str "error: invalid production idx: ".toList))
        (.cons .elem (.ref "prodIdx".toList .nil) .nil), r) := by
    have h3 : parts (m + 2) (.chunk [] :: .tock :: r) = some (.nil, r) := by
      simp only [parts, bind, Option.bind, pure]
    have h2 : parts (m + 3) (.hole :: .id "prodIdx".toList :: .holeEnd :: .chunk [] :: .tock :: r) =
        some (.cons .elem (.ref "prodIdx".toList .nil) .nil, r) := by
      rw [parts, h (m + 2) (by omega)]
      simp only [bind, Option.bind, pure, h3]
    rw [parts, h2]
    rfl
  rw [primary, hp]
  rfl

theorem rd_emit : ∀ (as : List Act) {r : List Word}, ends r = true →
    Rd TsSyntax.type (as.flatMap emitW ++ .tick :: .chunk "error: invalid production idx: ".toList :: .hole :: .id "prodIdx".toList :: .holeEnd ::
      .chunk [] :: .tock :: r) (emitExp as) r
  | [], r, hr => rd_emitEnd hr
  | a :: as, r, hr => by
    have ih := rd_emit as hr
    rw [List.flatMap_cons, List.append_assoc]
    simp only [emitW, List.cons_append, List.nil_append]
    have ne : "actions.Action".toList ++ digits a.idx ≠ "Array".toList := by
      intro h
      have := congrArg (List.head?) h
      rw [show "actions.Action".toList = 'a' :: "ctions.Action".toList from by decide +kernel] at this
      revert this
      simp only [List.cons_append, List.head?_cons]
      decide
    have ap : ∀ r, Rd primary (.id ("actions.Action".toList ++ digits a.idx) :: .punct '<' :: .id "symbolStack".toList :: .punct '>' :: r)
        (.ref ("actions.Action".toList ++ digits a.idx) (.cons .elem (.ref "symbolStack".toList .nil) .nil)) r := by
      intro r
      have := rd_app (x := "actions.Action".toList ++ digits a.idx) (rd_args (rd_refT (x := "symbolStack".toList) (r := .punct '>' :: r)
        (by decide) rfl rfl) rfl rfl rd_args_nil)
      rwa [apply, if_neg ne] at this
    exact rd_cond (rd_refU (by decide) rfl rfl rfl) (rd_union1 (rd_prefix rd_num rfl (rd_idx_nil rfl)) rfl rfl)
      (rd_prim (ap _) (noPrefix_free (dotted_free (by decide +kernel))) rfl rfl) ih

theorem rd_numberU {r : List Word} (hr : noPunct '<' r = true) (hr1 : noPunct '[' r = true) (hr2 : noPunct '|' r = true) :
    Rd unionType (.id "number".toList :: r) (.lit .number) r := by
  have h := rd_word (x := "number".toList) hr
  have e : (keyword "number".toList).getD (.ref "number".toList .nil) = .lit .number := by
    have : keyword "number".toList = some (.lit .number) := by unfold keyword; rfl
    rw [this]; rfl
  rw [e] at h
  exact rd_union1 (rd_prefix h rfl (rd_idx_nil hr1)) rfl hr2

/-- The declarations of the module `actions`. -/
def actsDecls (ps : List Ast.Prod) (acts : List Act) : List Decl :=
  ((variants ps).map fun v => aliasOf v.1 (readD v.2)) ++
    ("EmitProduction".toList, ["prodIdx".toList, "symbolStack".toList], emitExp acts) ::
    acts.map fun a => (actName a.idx, ["symbolStack".toList], actWith (callWith (readD a.code) a) a)

/-- Declarations one after the other. -/
theorem rd_declsS {α : Type} {w : α → List Word} {d : α → Decl} {r rest : List Word} {ds : List Decl} (hr : stops r = true)
    (hd : Rd aliases r ds rest) : ∀ {l : List α},
    (∀ a ∈ l, ∀ r ds, stops r = true → Rd aliases r ds rest → stops (w a ++ r) = true ∧ Rd aliases (w a ++ r) (d a :: ds) rest) →
    stops (l.flatMap w ++ r) = true ∧ Rd aliases (l.flatMap w ++ r) (l.map d ++ ds) rest
  | [], _ => ⟨hr, hd⟩
  | a :: l, h => by
    have h2 := rd_declsS hr hd (l := l) fun x hx => h x (by simp [hx])
    rw [List.flatMap_cons, List.append_assoc]
    exact h a (by simp) _ _ h2.1 h2.2

theorem it_actions {ps : List Ast.Prod} {acts : List Act} (hv : ∀ v ∈ variants ps, (readType v.2).isSome = true)
    (ha : ∀ a ∈ acts, ActOk a (wordsOf a.code)) (hc : ∀ a ∈ acts, (readType a.code).isSome = true) :
    It (actionsW (variants ps) acts) ⟨[], [], [("actions".toList, actsDecls ps acts)]⟩ := by
  have h3 := rd_decls (w := fun a => actW a (wordsOf a.code))
    (d := fun a => (actName a.idx, ["symbolStack".toList], actWith (callWith (readD a.code) a) a)) (r := [.punct '}'])
    (rest := [.punct '}']) (ds := []) rfl al_close (l := acts) fun a ha' r ds hr h => ⟨rfl, by
      obtain ⟨e, he⟩ := Option.isSome_iff_exists.mp (hc a ha')
      rw [(readType_words he).2.1]
      exact al_act (ha a ha') he hr h⟩
  have h2 := al_params (x := "EmitProduction".toList) (pa_extends (x := "prodIdx".toList) (rd_numberU rfl rfl rfl) rfl (pa_comma
    (pa_extends (x := "symbolStack".toList) (rd_symbolArr rfl rfl) rfl pa_nil))) (rd_emit acts (r := .punct ';' :: _) rfl) (al_semi h3.2)
  have h1 := rd_declsS (w := fun v => variantW v (wordsOf v.2)) (d := fun v => aliasOf v.1 (readD v.2)) rfl h2 (l := variants ps)
    fun v hv' r ds hr h => ⟨rfl, by
      obtain ⟨e, he⟩ := Option.isSome_iff_exists.mp (hv v hv')
      rw [(readType_words he).2.1]
      unfold variantW
      simp only [List.cons_append, List.nil_append]
      exact al_plain ((readType_words he).2.2 r hr) h⟩
  unfold actionsW actsDecls
  simp only [List.cons_append, List.nil_append, List.append_nil] at h1 ⊢
  exact it_module h1.2 it_nil


/-- What the text of the parser file can carry. -/
structure GenOk (ps : List Ast.Prod) (T : ParseGen.Tables) (ts : List Sym) : Prop where
  names : WritableNames T ts
  symbols : T.symbols ≠ []
  goto : ∀ r ∈ T.goto, ∀ e ∈ r.2, e.1 ≠ "extends".toList
  variants : ∀ v ∈ variants ps, WordName v.1 ∧ (readType v.2).isSome = true
  acts : ∀ a ∈ T.acts, ActOk a (wordsOf a.code)
  codes : ∀ a ∈ T.acts, (readType a.code).isSome = true

theorem isSome_scan {text : Str} (h : (readType text).isSome = true) : (TsSyntax.scan text).isSome = true := by
  obtain ⟨e, he⟩ := Option.isSome_iff_exists.mp h
  rw [(readType_words he).1]
  rfl

/-- The file the generated text is. -/
theorem scan_fileText {ps : List Ast.Prod} {l : Lalr} {T : ParseGen.Tables} (h : GenOk ps T l.grammar.tokens) :
    TsSyntax.scan (fileText ps l T) = some (typeDefsW T l.grammar.tokens ++ (importsW ++ actionsW (variants ps) T.acts)) := by
  refine TsSyntax.scan_eq ?_
  have hi : ∀ out, TsSyntax.scanFrom (at_ out .between) importsText = at_ (out ++ importsW) .between :=
    fun out => by unfold importsText; ts_lits; rfl
  unfold fileText
  rw [TsSyntax.scanFrom_append, TsSyntax.scanFrom_append, scan_typeDefs h.names, hi,
    scan_actions (fun v hv => ⟨(h.variants v hv).1, isSome_scan (h.variants v hv).2⟩) h.acts]
  simp

theorem it_file {ps : List Ast.Prod} {l : Lalr} {T : ParseGen.Tables} {max : Nat} (h : GenOk ps T l.grammar.tokens) :
    It (typeDefsW T l.grammar.tokens ++ (importsW ++ actionsW (variants ps) T.acts)) (genFile ps (genOf max l T)) := by
  have h1 := it_actions (ps := ps) (acts := T.acts) (fun v hv => (h.variants v hv).2) h.acts h.codes
  have h2 := it_import (i := .all "L".toList "./lex".toList)
    (ws := .punct '*' :: .id "as".toList :: .id "L".toList :: .id "from".toList :: .str "./lex".toList :: _) (by unfold importClause; rfl) h1
  have h3 := it_import (i := .all "U".toList "./util".toList)
    (ws := .punct '*' :: .id "as".toList :: .id "U".toList :: .id "from".toList :: .str "./util".toList :: _) (by unfold importClause; rfl) h2
  exact it_defs h.symbols h.goto h3

end Verif.Spec.TsProject
