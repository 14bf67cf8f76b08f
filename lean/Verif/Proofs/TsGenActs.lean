import Verif.Proofs.TsGenDefs

/-! # The module `actions` of the generated parser, read as TypeScript -/

namespace Verif.Spec.TsProject
open Verif MiniTs TsSyntax LexGen ParseGen

/-- What the text of a condition can carry. -/
def CondOk : Cond → Prop
  | .nonTerm n k => WordName n ∧ WordName k ∧ k ∉ reserved
  | .isToken n => WordName n
  | .lit n s => WordName n ∧ PlainName s
  | .text _ => False

def condW : Cond → List Word
  | .nonTerm n k => [.id ("__".toList ++ n), .id "extends".toList, .punct '{', .id "kind".toList, .punct ':', .str k, .punct ',',
      .id "value".toList, .punct ':', .id "infer".toList, .id n, .id "extends".toList, .id k, .punct '}']
  | .isToken n => [.id ("__".toList ++ n), .id "extends".toList, .punct '{', .id "kind".toList, .punct ':', .str "token".toList, .punct ',',
      .id "token".toList, .punct ':', .id "L.Token".toList, .punct '}']
  | .lit n s => [.id ("__".toList ++ n), .punct '[', .str "token".toList, .punct ']', .punct '[', .str "value".toList, .punct ']',
      .id "extends".toList, .id "infer".toList, .id n, .id "extends".toList, .str s]
  | .text _ => []

theorem scan_cond {c : Cond} (h : CondOk c) (out : List Word) :
    TsSyntax.scanFrom (at_ out .between) (c.write ++ " ? ".toList) = at_ (out ++ (condW c ++ [.punct '?'])) .between := by
  cases c with
  | nonTerm n k =>
    obtain ⟨h1, h2, -⟩ := h
    have h3 : ∀ out, TsSyntax.scanFrom (at_ out (qt '"' [])) k = at_ out (qt '"' k) := fun out => TsSyntax.scan_plain2 _ [] out h2.plain
    simp only [Cond.write, condW]
    ts_lits
    simp only [TsSyntax.scan_name h1]
    ts_lits
    simp only [h3]
    ts_lits
    simp only [TsSyntax.scan_ident h1]
    ts_lits
    simp only [TsSyntax.scan_ident h2]
    ts_lits
  | isToken n =>
    simp only [Cond.write, condW]
    ts_lits
    simp only [TsSyntax.scan_name h]
    ts_lits
  | lit n s =>
    obtain ⟨h1, h2⟩ := h
    have h3 : ∀ out, TsSyntax.scanFrom (at_ out (qt '\'' [])) s = at_ out (qt '\'' s) := fun out => TsSyntax.scan_plain1 _ [] out h2
    simp only [Cond.write, condW]
    ts_lits
    simp only [TsSyntax.scan_name h1]
    ts_lits
    simp only [TsSyntax.scan_ident h1]
    ts_lits
    simp only [h3]
    ts_lits
  | text n => exact h.elim

def msgW (m : Msg × Bool) : List Word :=
  match m with
  | (.invalidSymbol p a, true) => [.punct ':', .str (msgText (.invalidSymbol p a))]
  | (m, _) => [.punct ':', .tick, .chunk (msgText m), .tock]

theorem msgText_inv (p a : Nat) : msgText (.invalidSymbol p a) =
    "error: invalid symbol (pos `".toList ++ (digits p ++ ("`, Action".toList ++ (digits a ++ ")".toList))) := by
  have e1 : "error: invalid symbol (pos `".toList = name! "error: invalid symbol (pos `" := by decide +kernel
  have e3 : "`, Action".toList = name! "`, Action" := by decide +kernel
  have e4 : ")".toList = name! ")" := by decide +kernel
  rw [e1, e3, e4, msgText]
  simp only [List.append_assoc]

theorem msgText_not (p a : Nat) : msgText (.notToken p a) =
    "error: not a token (pos `".toList ++ (digits p ++ ("`, Action".toList ++ (digits a ++ ")".toList))) := by
  have e1 : "error: not a token (pos `".toList = name! "error: not a token (pos `" := by decide +kernel
  have e3 : "`, Action".toList = name! "`, Action" := by decide +kernel
  have e4 : ")".toList = name! ")" := by decide +kernel
  rw [e1, e3, e4, msgText]
  simp only [List.append_assoc]

theorem scan_msg (m : Msg × Bool) (out : List Word) :
    TsSyntax.scanFrom (at_ out .between) (" : ".toList ++ m.1.write m.2) = at_ (out ++ msgW m) .between := by
  obtain ⟨m, b⟩ := m
  cases m with
  | invalidSymbol p a =>
    cases b with
    | true =>
      have e1 : Msg.write true (.invalidSymbol p a) =
        "\"error: invalid symbol (pos `".toList ++ digits p ++ "`, Action".toList ++ digits a ++ ")\"".toList := rfl
      have e2 : msgW (.invalidSymbol p a, true) = [.punct ':', .str (msgText (.invalidSymbol p a))] := rfl
      rw [e2, msgText_inv]
      change TsSyntax.scanFrom _ (_ ++ Msg.write true (.invalidSymbol p a)) = _
      rw [e1]
      ts_lits
    | false =>
      have e1 : Msg.write false (.invalidSymbol p a) =
        "`error: invalid symbol (pos \\`".toList ++ digits p ++ "\\`, Action".toList ++ digits a ++ ")`".toList := rfl
      have e2 : msgW (.invalidSymbol p a, false) = [.punct ':', .tick, .chunk (msgText (.invalidSymbol p a)), .tock] := rfl
      rw [e2, msgText_inv]
      change TsSyntax.scanFrom _ (_ ++ Msg.write false (.invalidSymbol p a)) = _
      rw [e1]
      ts_lits
  | notToken p a =>
    have e1 : Msg.write b (.notToken p a) =
      "`error: not a token (pos \\`".toList ++ digits p ++ "\\`, Action".toList ++ digits a ++ ")`".toList := rfl
    have e2 : msgW (.notToken p a, b) = [.punct ':', .tick, .chunk (msgText (.notToken p a)), .tock] := rfl
    rw [e2, msgText_not]
    change TsSyntax.scanFrom _ (_ ++ Msg.write b (.notToken p a)) = _
    rw [e1]
    ts_lits

theorem wordName_plain {s : Str} (h : WordName s) : PlainName s := by
  intro c hc
  have h1 := h.plain c hc
  refine ⟨h1.1, ?_, h1.2⟩
  rintro rfl
  have := wordChars h _ hc
  revert this
  decide

def callW (a : Act) (code : List Word) : List Word :=
  [.punct '[', .punct '{', .id "kind".toList, .punct ':', .str a.name, .punct ',', .id "value".toList, .punct ':'] ++
    (code ++ [.punct '}', .punct ',', .punct '.', .punct '.', .punct '.', .id "newStack".toList, .punct ']'])

theorem scan_call {a : Act} {code : List Word} (hn : WordName a.name) (hc : TsSyntax.scan a.code = some code) (hl : Closed a.code)
    (out : List Word) : TsSyntax.scanFrom (at_ out .between) a.callText = at_ (out ++ callW a code) .between := by
  have h3 : ∀ out, TsSyntax.scanFrom (at_ out (qt '\'' [])) a.name = at_ out (qt '\'' a.name) :=
    fun out => TsSyntax.scan_plain1 _ [] out (wordName_plain hn)
  have e : " },...newStack]".toList = ' ' :: "},...newStack]".toList := by decide +kernel
  unfold Act.callText callW
  simp only [TsSyntax.scanFrom_append]
  ts_lits
  simp only [h3]
  ts_lits
  rw [e, TsSyntax.scan_code hc (by decide) (.inr hl), ← e]
  ts_lits


def inferW (xs : List Str) : List Word := xs.flatMap fun x => [.id "infer".toList, .id x, .punct ',']

/-- The name of a parameter is a word. -/
def ParamOk : Param → Prop
  | .named n _ => WordName n
  | _ => True

theorem scan_infer : ∀ (ps : List Param) (i : Nat), (∀ p ∈ ps, ParamOk p) → ∀ out,
    TsSyntax.scanFrom (at_ out .between) (inferText i ps) = at_ (out ++ inferW (inferNames i ps)) .between
  | [], i, _, out => by
    show at_ out .between = at_ (out ++ []) .between
    rw [List.append_nil]
  | p :: ps, i, h, out => by
    have ih := fun j => scan_infer ps j fun q hq => h q (by simp [hq])
    have hp := h p (by simp)
    have rest : TsSyntax.scanFrom (at_ out .between) ("infer var".toList ++ digits i ++ ",".toList ++ inferText (i + 1) ps) =
        at_ (out ++ inferW (("var".toList ++ digits i) :: inferNames (i + 1) ps)) .between := by
      unfold inferW
      ts_lits
      rw [ih]
      simp only [List.flatMap_cons]
      unfold inferW
      ts_lits
    cases p with
    | named n q =>
      have hn : WordName n := hp
      have e3 : inferText i (.named n q :: ps) = "infer __".toList ++ n ++ ",".toList ++ inferText i ps := rfl
      have e4 : inferNames i (.named n q :: ps) = ("__".toList ++ n) :: inferNames i ps := rfl
      rw [e3, e4]
      unfold inferW
      ts_lits
      simp only [TsSyntax.scan_name hn]
      ts_lits
      rw [ih]
      simp only [List.flatMap_cons]
      unfold inferW
      ts_lits
    | nonTerm s => exact rest
    | strLit s => exact rest
    | regex s => exact rest

/-- What is checked of the parameters, and the words of the mapping code. -/
structure ActOk (a : Act) (code : List Word) : Prop where
  name : WordName a.name
  conds : ∀ c ∈ (validate a).1, CondOk c
  params : ∀ p ∈ a.inputs, ParamOk p
  scan : TsSyntax.scan a.code = some code
  closed : Closed a.code

def msgsOf (a : Act) : List (Msg × Bool) := (validate a).2.zip (a.inputs.flatMap paramQuotes)

def actW (a : Act) (code : List Word) : List Word :=
  [.id "type".toList, .id ("Action".toList ++ digits a.idx), .punct '<', .id "symbolStack".toList, .id "extends".toList,
    .id "type_defs.Symbol".toList, .punct '[', .punct ']', .punct '>', .punct '=', .id "U.PopNStackWithValue".toList, .punct '<',
    .id "symbolStack".toList, .punct ',', .num a.inputs.length, .punct '>', .id "extends".toList, .punct '[', .id "infer".toList,
    .id "newStack".toList, .punct ',', .id "infer".toList, .id "poppedValues".toList, .punct ']', .punct '?',
    .id "poppedValues".toList, .id "extends".toList, .punct '['] ++ (inferW (inferNames 0 a.inputs) ++
  ([.punct ']', .punct '?', .id "newStack".toList, .id "extends".toList, .id "type_defs.Symbol".toList, .punct '[', .punct ']', .punct '?'] ++
  (((validate a).1.flatMap fun c => condW c ++ [.punct '?']) ++ (callW a code ++ ((msgsOf a).flatMap msgW ++
  [.punct ':', .tick, .chunk ("unreachable: `newStack` should always be a type_defs.Symbol[] (Action".toList ++ (digits a.idx ++ ")".toList)), .tock,
    .punct ':', .tick, .chunk ("error: popping off symbol Stack Action".toList ++ digits a.idx), .tock,
    .punct ':', .str "unreachable: inferring popped values never fails".toList])))))

theorem scan_act {a : Act} {code : List Word} (h : ActOk a code) (out : List Word) :
    TsSyntax.scanFrom (at_ out .between) a.text = at_ (out ++ actW a code) .between := by
  unfold Act.text actW Act.paramsText
  ts_lits
  rw [scan_infer a.inputs 0 h.params]
  ts_lits
  rw [TsSyntax.scan_flatMap (g := fun c => condW c ++ [.punct '?']) (fun c hc out => scan_cond (h.conds c hc) out)]
  rw [scan_call h.name h.scan h.closed]
  rw [TsSyntax.scan_flatMap (g := msgW) (fun m _ out => scan_msg m out)]
  ts_lits
  rfl

def emitW (a : Act) : List Word :=
  [.id "prodIdx".toList, .id "extends".toList, .num a.idx, .punct '?', .id ("actions.Action".toList ++ digits a.idx), .punct '<',
    .id "symbolStack".toList, .punct '>', .punct ':']

theorem scan_emit (a : Act) (out : List Word) :
    TsSyntax.scanFrom (at_ out .between) (emitCaseText a) = at_ (out ++ emitW a) .between := by
  unfold emitCaseText emitW
  ts_lits

def variantW (v : Str × Str) (code : List Word) : List Word := [.id "type".toList, .id v.1, .punct '='] ++ code

theorem scan_variant {v : Str × Str} {code : List Word} (hn : WordName v.1) (hc : TsSyntax.scan v.2 = some code) (out : List Word) :
    TsSyntax.scanFrom (at_ out .between) (variantText v) = at_ (out ++ variantW v code) .between := by
  have e : "\n".toList = '\n' :: [] := by decide
  unfold variantText variantW
  ts_lits
  simp only [TsSyntax.scan_ident hn]
  ts_lits
  rw [e, TsSyntax.scan_code hc (by decide) (.inl rfl), ← e]
  ts_lits

def importsW : List Word :=
  [.id "import".toList, .punct '*', .id "as".toList, .id "U".toList, .id "from".toList, .str "./util".toList,
    .id "import".toList, .punct '*', .id "as".toList, .id "L".toList, .id "from".toList, .str "./lex".toList]

/-- The words of a text, if it can be scanned. -/
def wordsOf (s : Str) : List Word := (TsSyntax.scan s).getD []

def actionsW (vs : List (Str × Str)) (acts : List Act) : List Word :=
  [.id "export".toList, .id "declare".toList, .id "module".toList, .id "actions".toList, .punct '{'] ++
  (vs.flatMap (fun v => variantW v (wordsOf v.2)) ++
  ([.id "type".toList, .id "EmitProduction".toList, .punct '<', .id "prodIdx".toList, .id "extends".toList, .id "number".toList, .punct ',',
    .id "symbolStack".toList, .id "extends".toList, .id "type_defs.Symbol".toList, .punct '[', .punct ']', .punct '>', .punct '='] ++
  (acts.flatMap emitW ++ ([.tick, .chunk "error: invalid production idx: ".toList, .hole, .id "prodIdx".toList, .holeEnd,
    .chunk [], .tock, .punct ';'] ++ (acts.flatMap (fun a => actW a (wordsOf a.code)) ++ [.punct '}'])))))

theorem scan_actions {ps : List Ast.Prod} {acts : List Act} (hv : ∀ v ∈ variants ps, WordName v.1 ∧ (TsSyntax.scan v.2).isSome = true)
    (ha : ∀ a ∈ acts, ActOk a (wordsOf a.code)) (out : List Word) :
    TsSyntax.scanFrom (at_ out .between) (actionsModuleText ps acts) = at_ (out ++ actionsW (variants ps) acts) .between := by
  unfold actionsModuleText actionsW
  ts_lits
  rw [TsSyntax.scan_flatMap (g := fun v => variantW v (wordsOf v.2)) (fun v hv' out => by
    obtain ⟨h1, h2⟩ := hv v hv'
    obtain ⟨ws, h2⟩ := Option.isSome_iff_exists.mp h2
    have : wordsOf v.2 = ws := by unfold wordsOf; rw [h2]; rfl
    rw [this]
    exact scan_variant h1 h2 out)]
  ts_lits
  rw [TsSyntax.scan_flatMap (g := emitW) (fun a _ out => scan_emit a out)]
  ts_lits
  rw [TsSyntax.scan_flatMap (g := fun a => actW a (wordsOf a.code)) (fun a ha' out => by
    rw [TsSyntax.scanFrom_append, scan_act (ha a ha')]
    ts_lits)]
  ts_lits

end Verif.Spec.TsProject
