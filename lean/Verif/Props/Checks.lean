import Verif.Proofs.ChecksOk
import Verif.Proofs.ParseTextOk
import Verif.Props.TsParse

/-! # Property C44: the parameter checks of the generated actions -/

namespace Verif.Props
open Verif Spec ParseGen Ts

section
variable {V : Type} {S : Sem V} {T : ParseGen.Tables} {max : Nat} {a : Act} {vs rest : List (Symb V)}

/-- What an action is applied to: the symbols `vs` of its inputs on top of `rest`. -/
structure Applied (S : Sem V) (T : ParseGen.Tables) (max : Nat) (a : Act) (vs rest : List (Symb V)) : Prop where
  params : ParamsOk a.inputs
  length : a.inputs.length = vs.length
  fits : a.inputs.length ≤ max
  symbols : rest.all (isSymbol S T) = true

theorem Applied.run (h : Applied S T max a vs rest) : runAct max S T a (vs.reverse ++ rest) =
    match runConds S (poppedNames a.inputs vs) (checks a.idx 0 a.inputs).1 (checks a.idx 0 a.inputs).2 [] with
    | .ok env =>
      match S.code a.code env with
      | none => .other
      | some v =>
        match mget "newStack".toList env with
        | none => .stack (.nonTerm a.name v :: rest)
        | some u =>
          match S.spread u with
          | some l => .stack (.nonTerm a.name v :: l)
          | none => .other
    | .error (some m) => .error m
    | .error none => .other := by
  have h1 : (vs.reverse ++ rest).drop a.inputs.length = rest := by rw [h.length, ← List.length_reverse, List.drop_left]
  have h2 : ((vs.reverse ++ rest).take a.inputs.length).reverse = vs := by
    rw [h.length, ← List.length_reverse, List.take_left, List.reverse_reverse]
  unfold runAct
  rw [popWith_ok _ _ h.fits, if_pos (by simp [h.length]), h1, h2]
  simp only [h.length, h.symbols, if_true]
  rfl

theorem Applied.popped (h : Applied S T max a vs rest) : ∀ n y, (n, y) ∈ poppedNames a.inputs vs →
    mget n (poppedNames a.inputs vs) = some y :=
  fun _ _ hm => mget_of_nodup hm (by rw [poppedNames_names h.length]; exact h.params.distinct)

theorem unnamed_checked {ps : List Param} {i : Nat} (hl : ps.length = vs.length)
    (hfirst : ∀ (j : Nat) m t, ps[j]? = some (.named m t) → i ≤ j) : List.Forall₂ (Checked S) (ps.take i) (vs.take i) := by
  rw [List.forall₂_iff_get]
  refine ⟨by simp [hl], fun j h1 h2 n ty e => ?_⟩
  have hj : j < i := by simp at h1; omega
  have : ps[j]? = some (.named n ty) := by
    rw [← e, List.get_eq_getElem, List.getElem_take, List.getElem?_eq_getElem]
  have := hfirst j n ty this
  omega

theorem valuesOf_name : ∀ {ps : List Param} {ys : List (Symb V)} {x : Str × V}, x ∈ valuesOf S ps ys → x.1 ∈ ps.filterMap Param.name?
  | [], _, x, h => by simp [valuesOf] at h
  | _ :: _, [], x, h => by simp [valuesOf] at h
  | p :: ps, y :: ys, x, h => by
    rw [valuesOf_cons] at h
    rw [List.filterMap_cons]
    rcases List.mem_append.mp h with h | h
    · obtain ⟨ty, rfl⟩ := valuesAt_name h
      simp [Param.name?]
    · have := valuesOf_name h
      split
      · exact this
      · exact List.mem_cons_of_mem _ this

/-- C44, positions.  If the first input that is not given what it asks for is number
`i + 1`, the action ends with an error.  The checks being numbered in the order they
are made, from the first to the last, the error names the position of the check that
comes as late as the failed check comes early. -/
theorem C44_mirror (h : Applied S T max a vs rest) {i : Nat} {p : Param} {y : Symb V} (hp : a.inputs[i]? = some p)
    (hy : vs[i]? = some y) (hb : List.Forall₂ (Checked S) (a.inputs.take i) (vs.take i)) (hno : ¬ Checked S p y) :
    ∃ (k : Nat) (m : Msg), (positions 0 a.inputs)[k]? = some (i + 1) ∧ (positions 0 a.inputs).reverse[k]? = some (Msg.pos m) ∧
      runAct max S T a (vs.reverse ++ rest) = .error m := by
  obtain ⟨k, h1, h2⟩ := (checks_run (S := S) (act := a.idx) (i := 0) (env := []) (es := (checks a.idx 0 a.inputs).2)
      h.length h.params.flat h.params.noType h.popped (fun _ _ _ => rfl)).2 i p y hp hy hb hno
  have h3 := (checks_pos (act := a.idx) (i := 0) h.params.flat).1
  have hk : k < (positions 0 a.inputs).length := (List.getElem?_eq_some_iff.mp h1).1
  have hk2 : k < (checks a.idx 0 a.inputs).2.reverse.length := by
    rw [List.length_reverse, ← List.length_map (f := Msg.pos), h3]; exact hk
  refine ⟨k, (checks a.idx 0 a.inputs).2.reverse[k], by simpa using h1, ?_, ?_⟩
  · rw [← h3, ← List.map_reverse, List.getElem?_map, List.getElem?_eq_getElem hk2]
    rfl
  · rw [h.run, h2, List.getElem?_eq_getElem hk2]

/-- C44, checks.  An action whose parameters have distinct names, none of them
`newStack` or the name of a nonterminal among the inputs, replaces the symbols of its
inputs if and only if every named input is given a symbol of the kind it asks for;
its mapping code then sees every parameter once, with the value of its own symbol. -/
theorem C44_checks (h : Applied S T max a vs rest) (hn : "newStack".toList ∉ a.inputs.filterMap Param.name?) :
    (List.Forall₂ (Checked S) a.inputs vs → ∀ v, S.code a.code (valuesOf S a.inputs vs) = some v →
      runAct max S T a (vs.reverse ++ rest) = .stack (.nonTerm a.name v :: rest)) ∧
    (¬ List.Forall₂ (Checked S) a.inputs vs → ∃ m, runAct max S T a (vs.reverse ++ rest) = .error m) := by
  constructor
  · intro hc v hv
    have := (checks_run (S := S) (act := a.idx) (i := 0) (env := []) (es := (checks a.idx 0 a.inputs).2)
      h.length h.params.flat h.params.noType h.popped (fun _ _ _ => rfl)).1 hc
    rw [h.run, this]
    simp only [List.nil_append, hv]
    rw [mget_eq_none_iff.mpr]
    intro hm
    refine hn ?_
    obtain ⟨x, hx, e⟩ := List.mem_map.mp hm
    rw [← e]
    exact valuesOf_name hx
  · intro hc
    obtain ⟨i, p, y, h1, h2, h3, h4⟩ := first_fail h.length hc
    obtain ⟨k, m, _, _, h5⟩ := C44_mirror h h1 h2 h3 h4
    exact ⟨m, h5⟩

/-- C44, partial: with a single named input the error names its position.  Missing:
two and more named inputs, where `C44_wrong` shows that it does not. -/
theorem C44_position_partial (h : Applied S T max a vs rest) {i : Nat} {n : Str} {ty : Param} {y : Symb V}
    (hp : a.inputs[i]? = some (.named n ty)) (hone : ∀ (j : Nat) m t, a.inputs[j]? = some (.named m t) → j = i)
    (hy : vs[i]? = some y) (hno : ¬ Suits S ty y) :
    ∃ m, runAct max S T a (vs.reverse ++ rest) = .error m ∧ Msg.pos m = i + 1 := by
  obtain ⟨k, m, _, h2, h3⟩ := C44_mirror h hp hy (unnamed_checked h.length fun j m t hj => (hone j m t hj).ge)
    fun hc => hno (hc n ty rfl)
  refine ⟨m, h3, ?_⟩
  obtain ⟨j, n', t, h4, h5⟩ := mem_positions.mp (List.mem_reverse.mp (List.mem_of_getElem? h2))
  rw [h5, hone j n' t h4]
  omega

/-- C44 fails whenever two inputs are named: if the first of them is not given what
it asks for, the error names the position of the last. -/
theorem C44_wrong (h : Applied S T max a vs rest) {i j : Nat} {n n' : Str} {ty ty' : Param} {y : Symb V}
    (hp : a.inputs[i]? = some (.named n ty)) (hfirst : ∀ (j : Nat) m t, a.inputs[j]? = some (.named m t) → i ≤ j)
    (hq : a.inputs[j]? = some (.named n' ty')) (hlast : ∀ (i : Nat) m t, a.inputs[i]? = some (.named m t) → i ≤ j)
    (hk : ∃ k, ty = .nonTerm k) (hy : vs[i]? = some y) (hno : ¬ Suits S ty y) :
    ∃ m, runAct max S T a (vs.reverse ++ rest) = .error m ∧ Msg.pos m = j + 1 := by
  obtain ⟨x, rfl⟩ := hk
  obtain ⟨k, m, h1, h2, h3⟩ := C44_mirror h hp hy (unnamed_checked h.length hfirst) fun hc => hno (hc n _ rfl)
  rw [first_position hp hfirst h1, last_position hq hlast] at h2
  exact ⟨m, h3, (Option.some.inj h2).symm⟩

end

theorem words_of {n : Str} (h : WordName n) : ∀ c ∈ n, isWordChar c = true := by
  obtain ⟨c, w, rfl, h1, h2⟩ := h
  intro x hx
  rcases List.mem_cons.mp hx with rfl | hx
  · simp [isWordChar, h1]
  · exact h2 x hx

theorem scanText_of {text : Str} {r : TsScan} (h : scanFrom ⟨.between, []⟩ text = r) : scanText text = match r.mode with
    | .between => some r.out
    | .digits n => some (r.out ++ [.num n])
    | .word w => some (r.out ++ [.word w])
    | _ => none := by subst h; rfl

/-- C44, text.  The conditions of nonterminals and literals are, for parameters and
nonterminals that are words and literals without quotes, backslashes and line breaks,
the words of `__n extends { kind: "K", value: infer n extends K }`,
`__n extends { kind: "token", token: L.Token }` and
`__n['token']['value'] extends infer n extends 's'`. -/
theorem C44_text {n k s : Str} (hn : WordName n) (hk : WordName k) (hs : PlainName s) :
    scanText (Cond.nonTerm n k).write = some [.word ("__".toList ++ n), .word "extends".toList, .punct '{', .word "kind".toList, .punct ':',
      .str k, .punct ',', .word "value".toList, .punct ':', .word "infer".toList, .word n, .word "extends".toList, .word k, .punct '}'] ∧
    scanText (Cond.isToken n).write = some [.word ("__".toList ++ n), .word "extends".toList, .punct '{', .word "kind".toList, .punct ':',
      .str "token".toList, .punct ',', .word "token".toList, .punct ':', .word "L".toList, .punct '.', .word "Token".toList, .punct '}'] ∧
    scanText (Cond.lit n s).write = some [.word ("__".toList ++ n), .punct '[', .str "token".toList, .punct ']', .punct '[',
      .str "value".toList, .punct ']', .word "extends".toList, .word "infer".toList, .word n, .word "extends".toList, .str s] := by
  have h1 : ∀ out, scanFrom ⟨.word "__".toList, out⟩ n = ⟨.word ("__".toList ++ n), out⟩ := fun out => scan_word n _ out (words_of hn)
  have h2 : ∀ out, scanFrom ⟨.quoted '"' [], out⟩ k = ⟨.quoted '"' k, out⟩ := fun out => scan_plain2 _ [] out hk.plain
  have h3 : ∀ out, scanFrom ⟨.between, out⟩ n = ⟨.word n, out⟩ := scan_ident hn
  have h4 : ∀ out, scanFrom ⟨.between, out⟩ k = ⟨.word k, out⟩ := scan_ident hk
  have h5 : ∀ out, scanFrom ⟨.quoted '\'' [], out⟩ s = ⟨.quoted '\'' s, out⟩ := fun out => scan_plain _ (.inr rfl) _ [] out hs
  refine ⟨?_, ?_, ?_⟩
  · refine (scanText_of (r := ⟨.between, _⟩) ?_).trans rfl
    unfold Cond.write
    scan_lits
    simp only [h1]
    scan_lits
    simp only [h2]
    scan_lits
    simp only [h3]
    scan_lits
    simp only [h4]
    scan_lits
  · refine (scanText_of (r := ⟨.between, _⟩) ?_).trans rfl
    unfold Cond.write
    scan_lits
    simp only [h1]
    scan_lits
  · refine (scanText_of (r := ⟨.between, _⟩) ?_).trans rfl
    unfold Cond.write
    scan_lits
    simp only [h1]
    scan_lits
    simp only [h3]
    scan_lits
    simp only [h5]
    scan_lits

/-- C44 fails for every named regex: after `infer n` its condition has the word
`extendsstring`, which is neither `extends` nor anything else that may follow. -/
theorem C44_false_regex {n : Str} (hn : WordName n) :
    scanText (Cond.text n).write = some [.word ("__".toList ++ n), .punct '[', .str "token".toList, .punct ']', .punct '[',
      .str "value".toList, .punct ']', .word "extends".toList, .word "infer".toList, .word n, .word "extendsstring".toList] := by
  have h1 : ∀ out, scanFrom ⟨.word "__".toList, out⟩ n = ⟨.word ("__".toList ++ n), out⟩ := fun out => scan_word n _ out (words_of hn)
  have h3 : ∀ out, scanFrom ⟨.between, out⟩ n = ⟨.word n, out⟩ := scan_ident hn
  refine (scanText_of (r := ⟨.word "extendsstring".toList, [.word ("__".toList ++ n), .punct '[', .str "token".toList,
    .punct ']', .punct '[', .str "value".toList, .punct ']', .word "extends".toList, .word "infer".toList, .word n]⟩) ?_).trans rfl
  unfold Cond.write
  scan_lits
  simp only [h1]
  scan_lits
  simp only [h3]
  scan_lits

/-! ## Samples -/

/-- Action 2 of the grammar of ts/parse_state2.gen.ts:
`<eee: Expr> <es: Exprs>` with code `[eee, ...es]`. -/
def exprsAct : Act := ⟨2, "Exprs".toList, "[eee, ...es]".toList,
  [.named "eee".toList (.nonTerm "Expr".toList), .named "es".toList (.nonTerm "Exprs".toList)]⟩

/-- A terminal between a named literal and an unnamed nonterminal. -/
def litAct : Act := ⟨1, "S".toList, "l".toList, [.nonTerm "A".toList, .named "l".toList (.strLit "x".toList), .strLit "y".toList]⟩

/-- Tables with the nonterminals of the samples. -/
def emptyT : ParseGen.Tables := ⟨["Expr".toList, "Exprs".toList, "A".toList, "S".toList], [], [], [], [], []⟩

theorem exprs_params : ParamsOk exprsAct.inputs := by
  refine ⟨?_, by decide, ?_⟩
  · intro n ty h m t e
    subst e
    simp [exprsAct] at h
  · intro n ty k h m h' e
    subst e
    simp only [exprsAct, List.mem_cons, Param.named.injEq, Param.nonTerm.injEq, List.not_mem_nil, or_false] at h h'
    rcases h with ⟨rfl, _⟩ | ⟨rfl, _⟩ <;> rcases h' with ⟨_, h'⟩ | ⟨_, h'⟩ <;> revert h' <;> decide

theorem lit_params : ParamsOk litAct.inputs := by
  refine ⟨?_, by decide, ?_⟩
  · intro n ty h m t e
    subst e
    simp [litAct] at h
  · intro n ty k h m h' e
    simp [litAct] at h'

-- C44: the checks of `exprsAct` pass.
example : Applied textSem emptyT 9 exprsAct [.nonTerm "Expr".toList "1".toList, .nonTerm "Exprs".toList "[2]".toList] [] ∧
    "newStack".toList ∉ exprsAct.inputs.filterMap Param.name? ∧
    List.Forall₂ (Checked textSem) exprsAct.inputs [.nonTerm "Expr".toList "1".toList, .nonTerm "Exprs".toList "[2]".toList] ∧
    runAct 9 textSem emptyT exprsAct [.nonTerm "Exprs".toList "[2]".toList, .nonTerm "Expr".toList "1".toList] =
      .stack [.nonTerm "Exprs".toList "[eee, ...es](eee=1;es=[2];)".toList] := by
  refine ⟨⟨exprs_params, rfl, by decide, rfl⟩, by decide, .cons ?_ (.cons ?_ .nil), by decide +kernel⟩
  · intro n ty e
    cases e
    exact ⟨_, rfl, rfl⟩
  · intro n ty e
    cases e
    exact ⟨_, rfl, rfl⟩

-- C44, single named input: the second of three, given the wrong text.
example : Applied textSem emptyT 9 litAct [.nonTerm "A".toList [], .token (some ⟨"z".toList, some (.val "z".toList)⟩),
      .token (some ⟨"y".toList, some (.val "y".toList)⟩)] [] ∧
    litAct.inputs[1]? = some (.named "l".toList (.strLit "x".toList)) ∧
    (∀ (j : Nat) m t, litAct.inputs[j]? = some (.named m t) → j = 1) ∧
    ¬ Suits textSem (.strLit "x".toList) (.token (some ⟨"z".toList, some (.val "z".toList)⟩)) ∧
    runAct 9 textSem emptyT litAct [.token (some ⟨"y".toList, some (.val "y".toList)⟩),
      .token (some ⟨"z".toList, some (.val "z".toList)⟩), .nonTerm "A".toList []] = .error (.notToken 2 1) := by
  refine ⟨⟨lit_params, rfl, by decide, rfl⟩, rfl, ?_, ?_, by decide +kernel⟩
  · intro j m t h
    match j, h with
    | 0, h => cases h
    | 1, _ => rfl
    | 2, h => cases h
    | _ + 3, h => cases h
  · rintro ⟨kind, h⟩
    simp at h

/-- C44 is false in general: `Action2` of the checked in ts/parse_state2.gen.ts given
a wrong first symbol says the second is wrong, and the other way round. -/
theorem C44_false : ∃ (a : Act) (x y : Symb Str), Applied textSem emptyT 9 a [x, y] [] ∧
    (∃ n ty, a.inputs[0]? = some (.named n ty) ∧ ¬ Suits textSem ty x) ∧
    (∃ n ty, a.inputs[1]? = some (.named n ty) ∧ Suits textSem ty y) ∧
    runAct 9 textSem emptyT a [y, x] = .error (.invalidSymbol 2 2) := by
  refine ⟨exprsAct, .nonTerm "A".toList [], .nonTerm "Exprs".toList [], ⟨exprs_params, rfl, by decide, rfl⟩,
    ⟨_, _, rfl, ?_⟩, ⟨_, _, rfl, ⟨_, rfl, rfl⟩⟩, by decide +kernel⟩
  rintro ⟨v, h, _⟩
  simp at h

-- The hypotheses of `C44_mirror` and `C44_wrong` for `exprsAct`, first input wrong.
example : Applied textSem emptyT 9 exprsAct [.nonTerm "A".toList [], .nonTerm "Exprs".toList []] [] ∧
    exprsAct.inputs[0]? = some (.named "eee".toList (.nonTerm "Expr".toList)) ∧
    exprsAct.inputs[1]? = some (.named "es".toList (.nonTerm "Exprs".toList)) ∧
    (∀ (i : Nat) m t, exprsAct.inputs[i]? = some (.named m t) → i ≤ 1) ∧
    List.Forall₂ (Checked textSem) (exprsAct.inputs.take 0) [] ∧
    ¬ Suits textSem (.nonTerm "Expr".toList) (.nonTerm "A".toList []) := by
  refine ⟨⟨exprs_params, rfl, by decide, rfl⟩, rfl, rfl, fun i m t h => ?_, .nil, ?_⟩
  · have := (List.getElem?_eq_some_iff.mp h).1
    simp [exprsAct] at this
    omega
  · rintro ⟨v, h, _⟩
    simp at h

-- C44, text.
example : WordName "eee".toList ∧ WordName "Expr".toList ∧ PlainName "+".toList :=
  ⟨⟨'e', "ee".toList, by decide, by decide, by decide⟩, ⟨'E', "xpr".toList, by decide, by decide, by decide⟩, by decide⟩

end Verif.Props
