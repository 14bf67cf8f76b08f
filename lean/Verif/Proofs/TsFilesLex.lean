import Verif.Proofs.TsFilesUtil
import Verif.Model.TsLex

/-! # The declarations of ts/lex.ts compute the functions of `Verif.Model.TsLex` -/

namespace Verif.MiniTs
variable {U : User} {G : Gen}

theorem lex_succ : lim U (prog G) .lex (name! "U.Succ") = lim U (prog G) .util (name! "Succ") := lim_alias rfl
theorem lex_gte : lim U (prog G) .lex (name! "U.Gte") = lim U (prog G) .util (name! "Gte") := lim_alias rfl
theorem lex_lt : lim U (prog G) .lex (name! "U.Lt") = lim U (prog G) .util (name! "Lt") := lim_alias rfl
theorem lex_eq : lim U (prog G) .lex (name! "U.Eq") = lim U (prog G) .util (name! "Eq") := lim_alias rfl
theorem lex_reverse : lim U (prog G) .lex (name! "U.Reverse") = lim U (prog G) .util (name! "Reverse") := lim_alias rfl
theorem lex_substring : lim U (prog G) .lex (name! "U.Substring") = lim U (prog G) .util (name! "Substring") := lim_alias rfl
theorem lex_isWhitespace : lim U (prog G) .lex (name! "U.IsWhitespace") = lim U (prog G) .util (name! "IsWhitespace") :=
  lim_alias rfl

/-- A token of `Lex`. -/
def tokTy (t : Ts.Tok) : Ty :=
  match t.value with
  | none => objS [(name! "kind", .str t.kind)]
  | some w => objS [(name! "kind", .str t.kind), (name! "value", textTy w)]

/-- A token or `never`. -/
def tok? : Option Ts.Tok → Ty
  | none => .never
  | some t => tokTy t

/-- `CharRange`. -/
def charRangeTy : Ty := .obj [(.str (name! "from"), false, .number), (.str (name! "to"), false, .number)]

theorem charRange_eq : lim U (prog G) .lex (name! "CharRange") [] =
    some charRangeTy := by
  rw [lim_decl lex.CharRange rfl rfl]
  ts_eval [lex.CharRange, charRangeTy]

theorem tokenDefT_eq : lim U (prog G) .lex (name! "TokenDef") [] =
    some (.obj [(.str (name! "kind"), false, .string), (.str (name! "hasValue"), false, .union [.bool true, .bool false])]) := by
  rw [lim_decl lex.TokenDef rfl rfl]
  ts_eval [lex.TokenDef]

theorem tokenT_eq : lim U (prog G) .lex (name! "Token") [] =
    some (.obj [(.str (name! "kind"), false, .string), (.str (name! "value"), true, .string)]) := by
  rw [lim_decl lex.Token rfl rfl]
  ts_eval [lex.Token]

theorem tokens_eq : lim U (prog G) .lex (name! "Tokens") [] =
    some (objN (G.lex.tokens.map fun e => (e.1, tokenDefTy e.2))) := lim_table rfl

theorem states_eq : lim U (prog G) .lex (name! "States") [] = some (.tup (G.lex.states.map stateTy)) := lim_table rfl

theorem dfaToNfa_eq : lim U (prog G) .lex (name! "DFAtoNFA") [] =
    some (objN (G.lex.dfaToNfa.map fun e => (e.1, nums e.2))) := lim_table rfl

theorem accepts_nums : ∀ l : List Nat, accepts U (.arr .number) (.tup (l.map .num)) = true := by
  intro l
  simp [accepts, lift]

/-- The result of `GetTokenDefImpl`. -/
def def? : Option (Str × Bool) → Ty
  | none => .undef
  | some d => tokenDefTy d

theorem getTokenDefImpl_eq : ∀ l : List Nat,
    lim U (prog G) .lex (name! "GetTokenDefImpl") [.tup (l.map .num)] = some (def? (Ts.getTokenDefImpl G.lex l))
  | [] => by
    rw [lim_decl lex.GetTokenDefImpl rfl rfl]
    ts_eval [lex.GetTokenDefImpl, def?, Ts.getTokenDefImpl]
  | x :: l => by
    have := getTokenDefImpl_eq l
    rw [lim_decl lex.GetTokenDefImpl rfl rfl]
    cases h : mget x G.lex.tokens <;>
      ts_eval [lex.GetTokenDefImpl, def?, Ts.getTokenDefImpl, tokens_eq, h, this, accepts_nums]

theorem tokenDefToToken_eq (s : Nat) (input : Str) (lb fwd : Option Nat) :
    lim U (prog G) .lex (name! "TokenDefToToken") [.num s, .str input, num? lb, num? fwd] =
      some (tok? (Ts.tokenDefToToken G.max G.lex s input lb fwd)) := by
  have hd : ∃ t, lim U (prog G) .lex (name! "GetTokenDef") [.num s] = some t ∧
      ((∃ d, Ts.getTokenDef G.lex s = some d ∧ t = tokenDefTy d) ∨ (Ts.getTokenDef G.lex s = none ∧ (t = .undef ∨ ∃ w, t = .str w))) := by
    rw [lim_decl lex.GetTokenDef rfl rfl]
    cases h : mget s G.lex.dfaToNfa with
    | none => ts_eval [lex.GetTokenDef, dfaToNfa_eq, h, Ts.getTokenDef]
    | some l =>
      have : lim U (prog G) .lex (name! "GetTokenDefImpl") [nums l] = _ := getTokenDefImpl_eq l
      refine ⟨def? (Ts.getTokenDefImpl G.lex l), ?_, ?_⟩
      · ts_eval [lex.GetTokenDef, dfaToNfa_eq, h, this]
      · simp only [Ts.getTokenDef, h]
        cases h2 : Ts.getTokenDefImpl G.lex l with
        | none => simp [def?]
        | some d => simp [def?]
  obtain ⟨t, h1, h2⟩ := hd
  rw [lim_decl lex.TokenDefToToken rfl rfl]
  rcases h2 with ⟨d, h2, rfl⟩ | ⟨h2, rfl | ⟨w, rfl⟩⟩
  · obtain ⟨kind, hv⟩ := d
    simp only [Ts.tokenDefToToken, h2]
    cases hv <;> ts_eval [lex.TokenDefToToken, h1, tokenDefTy, objS, tokenDefT_eq, acceptsObj, acceptsAny, member, access, memberAt, memberOr,
      lex_succ, lex_substring, succ_eq, substring_eq, tok?, tokTy]
  · ts_eval [lex.TokenDefToToken, h1, tokenDefT_eq, Ts.tokenDefToToken, h2, tok?]
  · ts_eval [lex.TokenDefToToken, h1, tokenDefT_eq, Ts.tokenDefToToken, h2, tok?]

theorem accepts_true (b : Option Bool) : accepts U (.bool true) (bool? b) = Ts.trueOrNever b := by
  cases b with
  | none => simp [bool?, accepts, lift, Ts.trueOrNever]
  | some b => cases b <;> simp [bool?, accepts, lift, Ts.trueOrNever]

theorem rangeContains_eq (r : Nat × Nat) (label : Nat) :
    lim U (prog G) .lex (name! "RangeContains") [labelTy r, .num label] = some (.bool (Ts.rangeContains G.max r label)) := by
  have h1 := gte_eq (U := U) (G := G) (some label) (some r.1)
  have h2 := lt_eq (U := U) (G := G) (some label) (some r.2)
  simp only [num?] at h1 h2
  rw [lim_decl lex.RangeContains rfl rfl]
  simp only [Ts.rangeContains]
  have e1 := accepts_true (U := U) (Ts.gte G.max (some label) (some r.1))
  have e2 := accepts_true (U := U) (Ts.lt G.max (some label) (some r.2))
  cases h3 : Ts.trueOrNever (Ts.gte G.max (some label) (some r.1)) <;>
    cases h4 : Ts.trueOrNever (Ts.lt G.max (some label) (some r.2)) <;>
    simp only [h3, h4] at e1 e2 <;>
    simp [ev, evs, mget, early, naked, isPattern, matTup, mat, test, access_objS,
      lex.RangeContains, labelTy, lex_gte, lex_lt, h1, h2, e1, e2]

/-- The result of `NextState`. -/
def next? : Ts.Next → Ty
  | .state n => .num n
  | .undefined => .undef
  | .never => .never

theorem accepts_label (r : Nat × Nat) :
    accepts U charRangeTy (labelTy r) = true := by
  simp [charRangeTy, labelTy, objS, accepts, lift, acceptsObj, member]

theorem not_accepts_label : accepts U charRangeTy .undef = false := by simp [charRangeTy, accepts, lift]

theorem early_label (r : Nat × Nat) (b : Bool) : early (labelTy r) b = none := rfl

theorem nextState_eq (label : Nat) (st : LexGen.State) (i : Option Nat) 
    (hn : Ts.nextState G.max label st i ≠ .never) :
    lim U (prog G) .lex (name! "NextState") [.num label, stateTy st, num? i] =
      some (next? (Ts.nextState G.max label st i)) := by
  induction i using Ts.nextState.induct (max := G.max) (label := label) (st := st) with
  | case1 => simp [Ts.nextState] at hn
  | case2 n h hr t ht =>
    have e : Ts.nextState G.max label st (some n) = .state t := by rw [Ts.nextState]; simp [h, hr, ht]
    rw [lim_decl lex.NextState rfl rfl, e]
    ts_eval [lex.NextState, num?, stateTy, nums, h, charRange_eq, accepts_label, early_label, rangeContains_eq, hr, ht, next?]
  | case3 n h hr ht =>
    have e : Ts.nextState G.max label st (some n) = .undefined := by rw [Ts.nextState]; simp [h, hr, ht]
    have ht' : st.to.length ≤ n := by simpa using ht
    rw [lim_decl lex.NextState rfl rfl, e]
    ts_eval [lex.NextState, num?, stateTy, nums, h, charRange_eq, accepts_label, early_label, rangeContains_eq, hr, ht', next?]
  | case4 n h hr ih =>
    have e : Ts.nextState G.max label st (some n) = Ts.nextState G.max label st (Ts.succ G.max (some n)) := by
      conv => lhs; rw [Ts.nextState]
      simp [h, hr]
    have hr' : Ts.rangeContains G.max st.labels[n] label = false := by simpa using hr
    have hs := succ_eq (U := U) (G := G) (some n)
    rw [e] at hn ⊢
    have := ih hn
    simp only [num?, stateTy, nums] at this hs
    rw [lim_decl lex.NextState rfl rfl]
    ts_eval [lex.NextState, num?, stateTy, nums, h, charRange_eq, accepts_label, early_label, rangeContains_eq, hr', lex_succ, hs, this]
  | case5 n h =>
    have e : Ts.nextState G.max label st (some n) = .undefined := by rw [Ts.nextState]; simp [h]
    have h' : st.labels.length ≤ n := by simpa using h
    rw [lim_decl lex.NextState rfl rfl, e]
    ts_eval [lex.NextState, num?, stateTy, nums, h', charRange_eq, not_accepts_label, next?]

theorem stateAccepts_eq (st : LexGen.State) :
    lim U (prog G) .lex (name! "StateAccepts") [stateTy st] = some (.bool st.accepting) := by
  rw [lim_decl lex.StateAccepts rfl rfl]
  cases h : st.accepting <;> ts_eval [lex.StateAccepts, stateTy, h]

/-- The characters are characters, and their codes are distinct. -/
structure CharsOk (G : Gen) : Prop where
  char : ∀ e ∈ G.chars, (Char.ofNat e.1).toNat = e.1
  codes : (G.chars.map (·.2)).Nodup

/-- `Characters[keyof Characters]`. -/
def charsTy (G : Gen) : Ty := .union (G.chars.map fun e => .str [Char.ofNat e.1])

/-- The code of a character. -/
def codeOf (G : Gen) (c : Char) : Option Nat := mget c.toNat G.chars

theorem mem_member : ∀ (l : List (Nat × Nat)) (f : Nat → Ty), (l.map (·.2)).Nodup → ∀ e ∈ l,
    member (.num e.2) (l.map fun e => (Key.num e.2, false, f e.1)) = some (false, f e.1)
  | [], _, _, _, he => by simp at he
  | a :: l, f, hl, e, he => by
    simp only [List.map_cons, List.nodup_cons, List.mem_map] at hl
    simp only [List.map_cons, member, Key.num.injEq]
    rcases List.mem_cons.1 he with rfl | he
    · simp
    · rw [if_neg fun h => hl.1 ⟨e, he, h.symm⟩]
      exact mem_member l f hl.2 e he

theorem mapM_some {α β : Type} (f : α → Option β) (g : α → β) : ∀ l : List α, (∀ a ∈ l, f a = some (g a)) →
    l.mapM f = some (l.map g)
  | [], _ => rfl
  | a :: l, h => by
    have := mapM_some f g l fun a ha => h a (List.mem_cons_of_mem _ ha)
    simp [List.mapM_cons, h a (List.mem_cons_self ..), this]

theorem characters_eq : lim U (prog G) .lex (name! "Characters") [] =
    some (objN (G.chars.map fun e => (e.2, .str [Char.ofNat e.1]))) := lim_table rfl

theorem charTable_eq : lim U (prog G) .lex (name! "CharTable") [] =
    some (objS (G.chars.map fun e => ([Char.ofNat e.1], .num e.2))) := lim_table rfl

theorem access_chars (hG : CharsOk G) :
    access (objN (G.chars.map fun e => (e.2, Ty.str [Char.ofNat e.1])))
      (keysN (G.chars.map fun e => (e.2, Ty.str [Char.ofNat e.1]))) = some (charsTy G) := by
  simp only [objN, keysN, List.map_map, charsTy, access]
  rw [List.mapM_map, mapM_some _ fun e : Nat × Nat => Ty.str [Char.ofNat e.1]]
  · rfl
  · intro e he
    have := mem_member G.chars (fun n => Ty.str [Char.ofNat n]) hG.codes e he
    simp only [Function.comp_apply, memberAt, memberOr]
    rw [show (List.map ((fun e : Nat × Ty => (Key.num e.1, false, e.2)) ∘ fun e : Nat × Nat => (e.2, Ty.str [Char.ofNat e.1])) G.chars) =
      G.chars.map fun e => (Key.num e.2, false, Ty.str [Char.ofNat e.1]) from rfl, this]

theorem toNat_eq_iff (c d : Char) : c.toNat = d.toNat ↔ c = d :=
  ⟨fun h => Char.ext (UInt32.toNat_inj.1 h), fun h => h ▸ rfl⟩

theorem acceptsAny_chars (c : Char) : ∀ l : List (Nat × Nat), (∀ e ∈ l, (Char.ofNat e.1).toNat = e.1) →
    acceptsAny U (l.map fun e => .str [Char.ofNat e.1]) (.str [c]) = (mget c.toNat l).isSome
  | [], _ => by simp [acceptsAny, mget]
  | e :: l, h => by
    have ih := acceptsAny_chars c l fun a ha => h a (List.mem_cons_of_mem _ ha)
    have he := h e (List.mem_cons_self ..)
    have hiff : c.toNat = e.1 ↔ c = Char.ofNat e.1 := by rw [← toNat_eq_iff, he]
    simp only [List.map_cons, acceptsAny, ih, mget, accepts, lift]
    by_cases hc : c.toNat = e.1
    · simp [hc, ← hiff.1 hc]
    · have : ¬ c = Char.ofNat e.1 := fun h => hc (hiff.2 h)
      simp [hc, this]

theorem accepts_chars (hG : CharsOk G) (c : Char) : accepts U (charsTy G) (.str [c]) = (codeOf G c).isSome := by
  simp only [charsTy, accepts, lift, codeOf]
  exact acceptsAny_chars c G.chars hG.char

theorem acceptsAny_string : ∀ l : List (Nat × Nat),
    acceptsAny U (l.map fun e => .str [Char.ofNat e.1]) .string = false
  | [] => rfl
  | e :: l => by simp [acceptsAny, accepts, lift, acceptsAny_string l]

theorem accepts_chars_string : accepts U (charsTy G) .string = false := by
  simp only [charsTy, accepts, lift]
  exact acceptsAny_string G.chars

theorem mget_charTable (c : Char) : ∀ l : List (Nat × Nat), (∀ e ∈ l, (Char.ofNat e.1).toNat = e.1) →
    mget [c] (l.map fun e => ([Char.ofNat e.1], Ty.num e.2)) = (mget c.toNat l).map .num
  | [], _ => rfl
  | e :: l, h => by
    have ih := mget_charTable c l fun a ha => h a (List.mem_cons_of_mem _ ha)
    have he := h e (List.mem_cons_self ..)
    have hiff : c.toNat = e.1 ↔ c = Char.ofNat e.1 := by rw [← toNat_eq_iff, he]
    simp only [List.map_cons, mget, ih]
    by_cases hc : c.toNat = e.1
    · simp [hc, ← hiff.1 hc]
    · have : ¬ c = Char.ofNat e.1 := fun h => hc (hiff.2 h)
      simp [hc, this]

/-- The result of `StringToCharList`. -/
theorem charList_eq (hG : CharsOk G) : ∀ (s : Str) (ret : List Char),
    (∀ full, Ts.charList (codeOf G) s ret = some full →
      lim U (prog G) .lex (name! "StringToCharList") [.str s, .tup (ret.map fun c => .str [c])] =
        some (.tup (full.map fun c => .str [c]))) ∧
    (Ts.charList (codeOf G) s ret = none → ∃ w,
      lim U (prog G) .lex (name! "StringToCharList") [.str s, .tup (ret.map fun c => .str [c])] = some (.str w))
  | [], ret => by
    refine ⟨?_, by simp [Ts.charList]⟩
    intro full h
    simp only [Ts.charList, Option.some.injEq] at h
    subst h
    rw [lim_decl lex.StringToCharList rfl rfl]
    ts_eval [lex.StringToCharList, lex_reverse, reverse_eq, Ts.reverse_eq, List.map_reverse]
  | c :: s, ret => by
    have ih := charList_eq hG s (c :: ret)
    cases hc : codeOf G c with
    | none =>
      simp only [Ts.charList, hc]
      refine ⟨by simp, fun _ => ⟨name! "invalid char: " ++ [c], ?_⟩⟩
      rw [lim_decl lex.StringToCharList rfl rfl]
      simp [ev, evs, mget, early, naked, isPattern, mat, matchTmpl, test, concat, partText, 
        keysOf_objN, characters_eq, access_chars hG, ↓accepts_chars hG, hc, lex.StringToCharList, accepts, lift]
    | some n =>
      simp only [Ts.charList, hc]
      have e : lim U (prog G) .lex (name! "StringToCharList") [.str (c :: s), .tup (ret.map fun c => .str [c])] = 
          lim U (prog G) .lex (name! "StringToCharList") [.str s, .tup ((c :: ret).map fun c => .str [c])] := by
        conv => lhs; rw [lim_decl lex.StringToCharList rfl rfl]
        simp [ev, evs, mget, early, naked, isPattern, mat, matchTmpl, test, splice,
          keysOf_objN, characters_eq, access_chars hG, ↓accepts_chars hG, hc, lex.StringToCharList, accepts, lift]
      rw [e]
      exact ih

/-- The targets of the states are states. -/
structure StatesOk (G : Gen) : Prop where
  start : 0 < G.lex.states.length
  to : ∀ s ∈ G.lex.states, ∀ t ∈ s.to, t < G.lex.states.length

/-- `lastAcceptingState`. -/
def last? : Option (Option Nat × Nat) → Ty
  | none => .undef
  | some (lf, ls) => .tup [num? lf, .num ls]

/-- The fourth element of the result of `LexImpl`. -/
def err? : Option (Char × Option Nat) → Ty
  | none => .undef
  | some (c, i) => .str (name! "invalid symbol: `" ++ [c] ++ name! "` at index " ++ LexGen.digits (i.getD 0))

/-- The result of `LexImpl`. -/
def LexResTy : Ts.LexRes → Ty → Prop
  | .tuple tokens last lb error, t => lb ≠ none ∧ t = .tup [.tup (tokens.map tok?), last? last, num? lb, err? error]
  | .string, t => ∃ w, t = .str w
  | .never, _ => True
  | .outOfFuel, _ => True

theorem nextState_mem {max label : Nat} {st : LexGen.State} {i : Option Nat} {n : Nat}
    (h : Ts.nextState max label st i = .state n) : n ∈ st.to := by
  induction i using Ts.nextState.induct (max := max) (label := label) (st := st) with
  | case1 => simp [Ts.nextState] at h
  | case2 m hm hr t ht =>
    rw [Ts.nextState] at h
    simp only [hm, ↓reduceDIte, hr, ↓reduceIte, ht, Ts.Next.state.injEq] at h
    exact h ▸ List.mem_of_getElem? ht
  | case3 m hm hr ht =>
    rw [Ts.nextState] at h
    simp [hm, hr, ht] at h
  | case4 m hm hr ih =>
    rw [Ts.nextState] at h
    simp only [hm, ↓reduceDIte, hr] at h
    exact ih h
  | case5 m hm =>
    rw [Ts.nextState] at h
    simp [hm] at h

theorem accepts_number (i : Option Nat) : accepts U .number (num? i) = true := by
  cases i <;> simp [num?, accepts, lift]

theorem lexImpl_eq (hG : CharsOk G) (hS : StatesOk G) (input : Str) (full : List Char) : ∀ (fuel : Nat) (st : Ts.LexState),
    st.state < G.lex.states.length → (st.lexemeBegin = none → st.forward = none) →
    Ts.lexImpl G.max (codeOf G) G.lex input full fuel st ≠ .never →
    Ts.lexImpl G.max (codeOf G) G.lex input full fuel st ≠ .outOfFuel →
    ∃ t, lim U (prog G) .lex (name! "LexImpl") [.str input, .tup (full.map fun c => .str [c]), .num st.state,
        .tup (st.tokens.map tok?), num? st.lexemeBegin, num? st.forward, .tup [], last? st.last] = some t ∧
      LexResTy (Ts.lexImpl G.max (codeOf G) G.lex input full fuel st) t := by
  intro fuel
  induction fuel with
  | zero =>
    intro st hst hlb hn ho
    cases hf : st.forward with
    | none => simp [Ts.lexImpl, hf] at hn
    | some f =>
      cases hc : full[f]? with
      | some c => simp [Ts.lexImpl, hf, hc] at ho
      | none =>
        have hc' : full.length ≤ f := by simpa using hc
        rw [lim_decl lex.LexImpl rfl rfl]
        refine ⟨.tup [.tup (st.tokens.map tok?), last? st.last, num? st.lexemeBegin, .undef], ?_, ?_⟩
        · ts_eval [lex.LexImpl, num?, hc']
        · simp only [Ts.lexImpl, hf, hc, LexResTy, err?, and_true]
          intro h
          simp [hlb h] at hf
  | succ fuel ih =>
    intro st hst hlb hn ho
    cases hf : st.forward with
    | none => simp [Ts.lexImpl, hf] at hn
    | some f =>
      have hlb' : st.lexemeBegin ≠ none := fun h => by simp [hlb h] at hf
      cases hc : full[f]? with
      | none =>
        have hc' : full.length ≤ f := by simpa using hc
        rw [lim_decl lex.LexImpl rfl rfl]
        refine ⟨.tup [.tup (st.tokens.map tok?), last? st.last, num? st.lexemeBegin, .undef], ?_, ?_⟩
        · ts_eval [lex.LexImpl, num?, hc']
        · simp only [Ts.lexImpl, hf, hc, LexResTy, err?, and_true]
          exact hlb'
      | some c =>
        cases hcode : codeOf G c with
        | none =>
          rw [lim_decl lex.LexImpl rfl rfl]
          refine ⟨.str (name! "invalid char: " ++ [c]), ?_, ?_⟩
          · ts_eval [lex.LexImpl, num?, hc, characters_eq, access_chars hG, accepts_chars hG, hcode]
          · simp [Ts.lexImpl, hf, hc, hcode, LexResTy]
        | some label =>
          have hs : G.lex.states[st.state]? = some G.lex.states[st.state] := List.getElem?_eq_getElem hst
          generalize G.lex.states[st.state] = s at hs
          have hmem := List.mem_of_getElem? hs
          have hmg := mget_charTable c G.chars hG.char
          rw [show mget c.toNat G.chars = some label from hcode] at hmg
          have hnx := nextState_eq (U := U) (G := G) label s (some 0)
          simp only [num?] at hnx
          rw [Ts.lexImpl] at hn ho ⊢
          simp only [hf, hc, hcode, hs] at hn ho ⊢
          have hsucc := succ_eq (U := U) (G := G) (some f)
          cases hx : Ts.nextState G.max label s (some 0) with
          | never => simp [hx] at hn
          | state n =>
            have hn' : n < G.lex.states.length := hS.to s hmem n (nextState_mem hx)
            have hs2 : G.lex.states[n]? = some G.lex.states[n] := List.getElem?_eq_getElem hn'
            generalize G.lex.states[n] = s2 at hs2
            simp only [hx, hs2] at hn ho ⊢
            obtain ⟨t, h1, h2⟩ := ih ⟨n, st.tokens, st.lexemeBegin, Ts.succ G.max (some f),
              if s2.accepting = true then some (some f, n) else st.last⟩ hn' (fun h => absurd h hlb') hn ho
            refine ⟨t, ?_, h2⟩
            rw [hx] at hnx
            have hnx := hnx (by simp)
            rw [← h1]
            rw [lim_decl lex.LexImpl rfl rfl]
            simp only [num?] at hsucc
            cases hacc : s2.accepting <;>
              ts_eval [lex.LexImpl, num?, hc, characters_eq, access_chars hG, accepts_chars hG, hcode, charTable_eq, hmg, states_eq, hs,
                hnx, next?, lex_succ, hsucc, hs2, stateAccepts_eq, hacc, last?]
          | undefined =>
            rw [hx] at hnx
            have hnx := hnx (by simp)
            simp only [hx] at hn ho ⊢
            cases hl : st.last with
            | some l =>
              obtain ⟨lf, ls⟩ := l
              simp only [hl] at hn ho ⊢
              cases hd : mget ls G.lex.dfaToNfa with
              | none =>
                refine ⟨.str (name! "unreachable: accepting state idx should always be a keyof Tokens"), ?_, by simp [LexResTy]⟩
                rw [lim_decl lex.LexImpl rfl rfl]
                cases lf <;>
                  ts_eval [lex.LexImpl, num?.eq_1, num?.eq_2, hc, characters_eq, access_chars hG, accepts_chars hG, hcode, charTable_eq,
                    hmg, states_eq, hs, hnx, next?, last?, acceptsTup, dfaToNfa_eq, hd]
              | some d =>
                simp only [hd] at hn ho ⊢
                obtain ⟨t, h1, h2⟩ := ih ⟨0, Ts.tokenDefToToken G.max G.lex ls input st.lexemeBegin lf :: st.tokens,
                  Ts.succ G.max lf, Ts.succ G.max lf, none⟩ hS.start id hn ho
                refine ⟨t, ?_, h2⟩
                rw [← h1]
                have hsl := succ_eq (U := U) (G := G) lf
                have htk := tokenDefToToken_eq (U := U) (G := G) ls input st.lexemeBegin lf
                rw [lim_decl lex.LexImpl rfl rfl]
                cases lf <;> simp only [num?.eq_1, num?.eq_2] at hsl htk <;>
                  ts_eval [lex.LexImpl, num?.eq_1, num?.eq_2, hc, characters_eq, access_chars hG, accepts_chars hG, hcode, charTable_eq,
                    hmg, states_eq, hs, hnx, next?, last?, acceptsTup, dfaToNfa_eq, hd, lex_succ, hsl, htk]
            | none =>
              simp only [hl] at hn ho ⊢
              have hw := isWhitespace_eq (U := U) (G := G) c
              obtain ⟨b, hb⟩ := Option.ne_none_iff_exists'.1 hlb'
              have he := eq_eq (U := U) (G := G) (some f) (some b)
              have hfb : Ts.eq (some f) (some b) = some (decide (f = b)) := by
                by_cases h : f = b <;> simp [Ts.eq, Ts.extendsNum, h]
              rw [hfb] at he
              simp only [num?.eq_2, bool?] at he hsucc
              simp only [hb, hfb] at hn ho ⊢
              by_cases hc' : Ts.isWhitespace c = true ∧ f = b
              · obtain ⟨hw', rfl⟩ := hc'
                have hd : (Ts.isWhitespace c && Ts.trueOrNever (some (decide (f = f)))) = true := by
                  simp [hw', Ts.trueOrNever]
                rw [if_pos hd] at hn ho ⊢
                rw [hw'] at hw
                obtain ⟨t, h1, h2⟩ := ih ⟨st.state, st.tokens, Ts.succ G.max (some f), Ts.succ G.max (some f), none⟩ hst
                  id hn ho
                refine ⟨t, ?_, h2⟩
                rw [← h1]
                rw [lim_decl lex.LexImpl rfl rfl]
                ts_eval [lex.LexImpl, num?.eq_1, num?.eq_2, hc, characters_eq, access_chars hG, accepts_chars hG, hcode, charTable_eq,
                  hmg, states_eq, hs, hnx, next?, last?, lex_succ, hsucc, lex_isWhitespace, hw, lex_eq, he]
              · have hd : ¬ (Ts.isWhitespace c && Ts.trueOrNever (some (decide (f = b)))) = true := by
                  simpa [Ts.trueOrNever] using hc'
                rw [if_neg hd] at hn ho ⊢
                refine ⟨_, ?_, by simp, rfl⟩
                rw [lim_decl lex.LexImpl rfl rfl]
                cases hw' : Ts.isWhitespace c with
                | false =>
                  rw [hw'] at hw
                  ts_eval [lex.LexImpl, num?.eq_1, num?.eq_2, hc, characters_eq, access_chars hG, accepts_chars hG, hcode, charTable_eq,
                    hmg, states_eq, hs, hnx, next?, last?, lex_isWhitespace, hw, lex_eq, he, err?]
                | true =>
                  have hfb' : ¬ f = b := fun h => hc' ⟨hw', h⟩
                  rw [hw'] at hw
                  rw [decide_eq_false hfb'] at he
                  ts_eval [lex.LexImpl, num?.eq_1, num?.eq_2, hc, characters_eq, access_chars hG, accepts_chars hG, hcode, charTable_eq,
                    hmg, states_eq, hs, hnx, next?, last?, lex_isWhitespace, hw, lex_eq, he, err?]

/-- The message of `Lex` for an unsupported character. -/
def unreachableLex : Str := name! "unreachable: inferring `tokens` and `lastAcceptingState` should always work"

/-- The result of `Lex` (ts/lex.ts:178-218). -/
def LexOutTy : Ts.LexOut → Ty → Prop
  | .tokens l, t => t = .tup (l.map tok?)
  | .invalidSymbol c i, t => t = err? (some (c, i))
  | .unreachable, t => t = .str unreachableLex
  | .never, _ => True
  | .outOfFuel, _ => True

theorem lex_out (hG : CharsOk G) (hS : StatesOk G) (fuel : Nat) (input : Str)
    (hn : Ts.lex G.max (codeOf G) G.lex fuel input ≠ .never) (ho : Ts.lex G.max (codeOf G) G.lex fuel input ≠ .outOfFuel) :
    ∃ t, lim U (prog G) .lex (name! "Lex") [.str input] = some t ∧
      LexOutTy (Ts.lex G.max (codeOf G) G.lex fuel input) t := by
  rw [Ts.lex] at hn ho ⊢
  have hchars := charList_eq (U := U) hG input []
  simp only [List.map_nil] at hchars
  cases hc : Ts.charList (codeOf G) input [] with
  | none =>
    obtain ⟨w, hw⟩ := hchars.2 hc
    refine ⟨.str unreachableLex, ?_, rfl⟩
    have : lim U (prog G) .lex (name! "LexImpl") [.str input, .str w, .num 0, .tup [], .num 0, .num 0, .tup [], .undef] =
        some .template := by
      rw [lim_decl lex.LexImpl rfl rfl]
      have ha : access (.str w) (.num 0) = some .string := rfl
      ts_eval [lex.LexImpl, ha, characters_eq, access_chars hG, accepts_chars_string]
    rw [lim_decl lex.Lex rfl rfl]
    ts_eval [lex.Lex, hw, this, unreachableLex]
  | some full =>
    have hfull := hchars.1 full hc
    simp only [hc] at hn ho ⊢
    have himpl := lexImpl_eq (U := U) hG hS input full fuel ⟨0, [], some 0, some 0, none⟩ hS.start id
    cases hr : Ts.lexImpl G.max (codeOf G) G.lex input full fuel ⟨0, [], some 0, some 0, none⟩ with
    | never => simp [hr] at hn
    | outOfFuel => simp [hr] at ho
    | string =>
      obtain ⟨t, h1, w, rfl⟩ := hr ▸ himpl (by simp [hr]) (by simp [hr])
      simp only [List.map_nil, num?, last?] at h1
      refine ⟨.str unreachableLex, ?_, rfl⟩
      rw [lim_decl lex.Lex rfl rfl]
      ts_eval [lex.Lex, hfull, h1, unreachableLex]
    | tuple tokens last lb error =>
      obtain ⟨t, h1, hlb, rfl⟩ := hr ▸ himpl (by simp [hr]) (by simp [hr])
      obtain ⟨b, rfl⟩ := Option.ne_none_iff_exists'.1 hlb
      simp only [List.map_nil, num?, last?.eq_1] at h1
      cases error with
      | some e =>
        obtain ⟨c, i⟩ := e
        refine ⟨err? (some (c, i)), ?_, rfl⟩
        rw [lim_decl lex.Lex rfl rfl]
        ts_eval [lex.Lex, hfull, h1, err?.eq_2]
      | none =>
        have hany : ∀ l : List Ty, accepts U (.arr .any) (.tup l) = true := by
          intro l; simp [accepts, lift]
        cases last with
        | none =>
          refine ⟨_, ?_, rfl⟩
          rw [lim_decl lex.Lex rfl rfl]
          ts_eval [lex.Lex, hfull, h1, err?.eq_1, last?.eq_1, lex_reverse, reverse_eq, Ts.reverse_eq, tok?, tokTy, objS]
        | some l =>
          obtain ⟨lf, ls⟩ := l
          have htk := tokenDefToToken_eq (U := U) (G := G) ls input (some b) lf
          refine ⟨_, ?_, rfl⟩
          rw [lim_decl lex.Lex rfl rfl]
          cases lf <;> simp only [num?.eq_1, num?.eq_2, last?.eq_2] at htk h1 <;>
            ts_eval [lex.Lex, hfull, h1, err?.eq_1, acceptsTup, lex_reverse, reverse_eq, Ts.reverse_eq, htk, tok?.eq_2, tokTy, objS]

end Verif.MiniTs
