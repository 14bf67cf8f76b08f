import Verif.Proofs.TsFilesLex
import Verif.Spec.TsType
import Verif.Proofs.LexTablesOk
import Verif.Model.TsParse
import Mathlib.Data.List.Forall2

/-! # The declarations of ts/parse.ts and the generated actions compute the functions of `Verif.Model.TsParse` -/

namespace Verif.MiniTs
variable {U : User} {G : Gen}

theorem parse_succ : lim U (prog G) .parse (name! "U.Succ") = lim U (prog G) .util (name! "Succ") := lim_alias rfl
theorem parse_pred : lim U (prog G) .parse (name! "U.Pred") = lim U (prog G) .util (name! "Pred") := lim_alias rfl
theorem parse_lt : lim U (prog G) .parse (name! "U.Lt") = lim U (prog G) .util (name! "Lt") := lim_alias rfl
theorem parse_reverse : lim U (prog G) .parse (name! "U.Reverse") = lim U (prog G) .util (name! "Reverse") := lim_alias rfl
theorem parse_pop : lim U (prog G) .parse (name! "U.PopNStack") = lim U (prog G) .util (name! "PopNStack") := lim_alias rfl
theorem parse_token : lim U (prog G) .parse (name! "L.Token") = lim U (prog G) .lex (name! "Token") := lim_alias rfl
theorem parse_lex : lim U (prog G) .parse (name! "L.Lex") = lim U (prog G) .lex (name! "Lex") := lim_alias rfl
theorem defs_token : lim U (prog G) .defs (name! "L.Token") = lim U (prog G) .lex (name! "Token") := lim_alias rfl
theorem parse_symbol : lim U (prog G) .parse (name! "type_defs.Symbol") = lim U (prog G) .defs (name! "Symbol") := lim_alias rfl
theorem parse_production : lim U (prog G) .parse (name! "type_defs.Production") = lim U (prog G) .defs (name! "Production") :=
  lim_alias rfl
theorem parse_emit : lim U (prog G) .parse (name! "actions.EmitProduction") = lim U (prog G) .actions (name! "EmitProduction") :=
  lim_alias rfl

theorem actionTable_eq : lim U (prog G) .parse (name! "type_defs.Action") [] =
    some (objN (G.parse.action.map fun r => (r.1, objN (r.2.map fun e => (e.1, actionTy e.2))))) := lim_table rfl
theorem gotoTable_eq : lim U (prog G) .parse (name! "type_defs.Goto") [] =
    some (objN (G.parse.goto.map fun r => (r.1, objS (r.2.map fun e => (e.1, .num e.2))))) := lim_table rfl
theorem kindTable_eq : lim U (prog G) .parse (name! "type_defs.TokenKindToIdx") [] =
    some (objS (G.parse.kindToIdx.map fun e => (e.1, .num e.2))) := lim_table rfl
theorem prodTable_eq : lim U (prog G) .parse (name! "type_defs.Productions") [] =
    some (objN (G.parse.productions.zipIdx.map fun e => (e.2, productionTy e.1))) := lim_table rfl
theorem tokTable_eq : lim U (prog G) .defs (name! "Tokens") [] =
    some (objN (G.tokens.zipIdx.map fun e => (e.2, tokenTy e.1))) := lim_table rfl

/-- A number or `undefined`. -/
def numU : Option Nat → Ty
  | none => .undef
  | some n => .num n

/-- The result of `GetAction`. -/
def action? : Option Action → Ty → Prop
  | some x, t => t = actionTy x
  | none, t => ∃ w, t = .str w

theorem accepts_keysN_undef : ∀ l : List (Nat × Ty), accepts U (keysN l) .undef = false
  | [] => by simp [keysN, accepts, lift, acceptsAny]
  | e :: l => by
    have := accepts_keysN_undef l
    simp only [keysN, accepts, lift] at this
    simp [keysN, accepts, lift, acceptsAny, this]

theorem getAction_eq (top : Nat) (a : Option Nat) :
    ∃ t, lim U (prog G) .parse (name! "GetAction") [.num top, numU a] = some t ∧
      action? (a.bind fun a => G.parse.action.tryIndex top a) t := by
  rw [lim_decl parse.GetAction rfl rfl]
  have hm : ∀ (l : Table Nat Action), mget top (l.map fun r => (r.1, objN (r.2.map fun e => (e.1, actionTy e.2)))) =
      (mget top l).map fun r => objN (r.map fun e => (e.1, actionTy e.2)) :=
    fun l => mget_vals (α := List (Nat × Action)) top (fun r => objN (r.map fun e => (e.1, actionTy e.2))) l
  cases h : mget top G.parse.action with
  | none =>
    refine ⟨_, by ts_eval [parse.GetAction, actionTable_eq, hm, h]; rfl, ?_⟩
    cases a <;> simp [Table.tryIndex, h, action?]
  | some r =>
    cases a with
    | none =>
      refine ⟨_, by ts_eval [parse.GetAction, actionTable_eq, hm, h, numU, accepts_keysN_undef]; rfl, ?_⟩
      simp [action?]
    | some a =>
      cases h2 : mget a r with
      | none =>
        refine ⟨_, by ts_eval [parse.GetAction, actionTable_eq, hm, h, numU, h2]; rfl, ?_⟩
        simp [action?, Table.tryIndex, h, h2]
      | some x =>
        refine ⟨actionTy x, by ts_eval [parse.GetAction, actionTable_eq, hm, h, numU, h2], ?_⟩
        simp [action?, Table.tryIndex, h, h2]

/-- The result of `GetGoto`. -/
def goto? : Option Nat → Ty → Prop
  | some j, t => t = .num j
  | none, t => ∃ w, t = .str w

theorem getGoto_eq (top : Nat) (k : Str) :
    ∃ t, lim U (prog G) .parse (name! "GetGoto") [.num top, .str k] = some t ∧ goto? (G.parse.goto.tryIndex top k) t := by
  rw [lim_decl parse.GetGoto rfl rfl]
  have hm : ∀ (l : Table Str Nat), mget top (l.map fun r => (r.1, objS (r.2.map fun e => (e.1, Ty.num e.2)))) =
      (mget top l).map fun r => objS (r.map fun e => (e.1, Ty.num e.2)) :=
    fun l => mget_vals (α := List (Str × Nat)) top (fun r => objS (r.map fun e => (e.1, Ty.num e.2))) l
  cases h : mget top G.parse.goto with
  | none =>
    refine ⟨_, by ts_eval [parse.GetGoto, gotoTable_eq, hm, h]; rfl, ?_⟩
    simp [Table.tryIndex, h, goto?]
  | some r =>
    cases h2 : mget k r with
    | none =>
      refine ⟨_, by ts_eval [parse.GetGoto, gotoTable_eq, hm, h, h2]; rfl, ?_⟩
      simp [goto?, Table.tryIndex, h, h2]
    | some x =>
      refine ⟨.num x, by ts_eval [parse.GetGoto, gotoTable_eq, hm, h, h2], ?_⟩
      simp [goto?, Table.tryIndex, h, h2]

theorem access_length (ts : List Ty) : access (.tup ts) (.str (name! "length")) = some (.num ts.length) := by
  simp [access]

theorem keysOf_tup (ts : List Ty) : keysOf (.tup ts) = some .number := rfl

theorem nextToken_eq (a : Option Nat) (i : Nat) (input : List Nat) (r : Option Nat × Nat)
    (h : Ts.nextToken G.max a i input = some r) :
    lim U (prog G) .parse (name! "NextToken") [numU a, .num i, .tup (input.map .num)] =
      some (.tup [numU r.1, .num r.2]) := by
  rw [lim_decl parse.NextToken rfl rfl]
  rw [Ts.nextToken] at h
  have hs := succ_eq (U := U) (G := G) (some i)
  cases h1 : Ts.succ G.max (some i) with
  | none => simp [h1] at h
  | some i1 =>
    rw [h1] at hs
    simp only [h1] at h
    have hl := lt_eq (U := U) (G := G) (some i1) (some input.length)
    simp only [num?] at hs hl
    have key : ∀ b : Bool, Ts.trueOrNever (Ts.lt G.max (some i1) (some input.length)) = b →
        Ts.lt G.max (some i1) (some input.length) = some b ∨ b = true ∧ Ts.lt G.max (some i1) (some input.length) = none := by
      intro b
      cases Ts.lt G.max (some i1) (some input.length) with
      | none => simp [Ts.trueOrNever]
      | some c => cases c <;> cases b <;> simp [Ts.trueOrNever]
    by_cases hb : Ts.trueOrNever (Ts.lt G.max (some i1) (some input.length)) = true
    · rw [if_pos hb, Option.some.injEq] at h
      subst h
      cases hg : input[i1]? with
      | none =>
        have hg' : input.length ≤ i1 := by simpa using hg
        rcases key _ hb with h2 | ⟨_, h2⟩ <;> simp only [h2, bool?] at hl <;>
          ts_eval [parse.NextToken, parse_succ, hs, parse_lt, hl, access_length, keysOf_tup, numU, hg']
      | some x =>
        rcases key _ hb with h2 | ⟨_, h2⟩ <;> simp only [h2, bool?] at hl <;>
          ts_eval [parse.NextToken, parse_succ, hs, parse_lt, hl, access_length, keysOf_tup, numU, hg]
    · rw [if_neg hb, Option.some.injEq] at h
      subst h
      rcases key _ (Bool.eq_false_iff.2 hb) with h2 | ⟨h2, _⟩
      · simp only [h2, bool?] at hl
        ts_eval [parse.NextToken, parse_succ, hs, parse_lt, hl, access_length, keysOf_tup]
      · cases h2

/-- `Token`. -/
def tokenT : Ty := .obj [(.str (name! "kind"), false, .string), (.str (name! "value"), true, .string)]

theorem accepts_tok (t : Ts.Tok) : accepts U tokenT (tokTy t) = true := by
  unfold tokTy
  cases t.value with
  | none => simp [tokenT, objS, accepts, lift, acceptsObj, member]
  | some w => cases w <;> simp [tokenT, objS, accepts, lift, acceptsObj, member, textTy]

theorem accepts_toks (l : List Ts.Tok) : accepts U (.arr tokenT) (.tup (l.map tokTy)) = true := by
  simp [accepts, lift, accepts_tok]

theorem early_tok (t : Ts.Tok) (b : Bool) : early (tokTy t) b = none := by
  unfold tokTy
  cases t.value <;> rfl

theorem access_tok_kind (t : Ts.Tok) : access (tokTy t) (.str (name! "kind")) = some (.str t.kind) := by
  unfold tokTy
  cases t.value <;> simp [access_objS, mget]

/-- The result of `TokenIndices`. -/
def indices? : Except Str (List Nat) → Ty
  | .ok l => .tup (l.map .num)
  | .error k => .str (name! "error: head['kind'] is not a valid token kind: " ++ k)

theorem tokenIndicesImpl_eq : ∀ (toks : List Ts.Tok) (ret : List Nat),
    lim U (prog G) .parse (name! "TokenIndicesImpl") [.tup (toks.map tokTy), .tup (ret.map .num)] =
      some (indices? (Ts.tokenIndicesImpl G.parse toks ret))
  | [], ret => by
    rw [lim_decl parse.TokenIndicesImpl rfl rfl]
    ts_eval [parse.TokenIndicesImpl, Ts.tokenIndicesImpl, indices?]
  | t :: toks, ret => by
    have hT : lim U (prog G) .parse (name! "L.Token") [] = some tokenT := by rw [parse_token, tokenT_eq]; rfl
    have hacc : lift (fun v => match v with | .tup vs => vs.all (accepts U tokenT) | .arr v => accepts U tokenT v | _ => false) 
      (.tup (toks.map tokTy)) = true := accepts_toks toks
    rw [lim_decl parse.TokenIndicesImpl rfl rfl, Ts.tokenIndicesImpl]
    cases h : mget t.kind G.parse.kindToIdx with
    | none =>
      ts_eval [parse.TokenIndicesImpl, hT, accepts_tok, early_tok, access_tok_kind, kindTable_eq, h, indices?]
    | some k =>
      have ih := tokenIndicesImpl_eq toks (k :: ret)
      simp only [List.map_cons] at ih
      ts_eval [parse.TokenIndicesImpl, hT, accepts_tok, early_tok, access_tok_kind, kindTable_eq, h, ih]

theorem tokenIndices_eq (toks : List Ts.Tok) :
    lim U (prog G) .parse (name! "TokenIndices") [.tup (toks.map tokTy)] = some (indices? (Ts.tokenIndices G.parse toks)) := by
  have := tokenIndicesImpl_eq (U := U) (G := G) toks []
  simp only [List.map_nil] at this
  rw [lim_decl parse.TokenIndices rfl rfl, Ts.tokenIndices]
  cases h : Ts.tokenIndicesImpl G.parse toks [] with
  | ok l =>
    rw [h] at this
    ts_eval [parse.TokenIndices, this, indices?, parse_reverse, reverse_eq, Ts.reverse_eq]
  | error k =>
    rw [h] at this
    ts_eval [parse.TokenIndices, this, indices?]

/-! ## Names -/

/-- The names of the parameters of an action. -/
def paramNames : List ParseGen.Param → List Str
  | [] => []
  | .named n _ :: ps => n :: paramNames ps
  | _ :: ps => paramNames ps

/-- The nonterminals that parameters of an action have as type. -/
def paramKinds : List ParseGen.Param → List Str
  | [] => []
  | .named _ (.nonTerm k) :: ps => k :: paramKinds ps
  | _ :: ps => paramKinds ps

/-- What the parameters of an action must be called (and not). -/
structure ActOk (G : Gen) (a : ParseGen.Act) : Prop where
  nodup : (paramNames a.inputs).Nodup
  noStack : name! "newStack" ∉ paramNames a.inputs
  noPrefix : ∀ n ∈ paramNames a.inputs, ∀ m ∈ paramNames a.inputs, n ≠ name! "__" ++ m
  noDot : ∀ n ∈ paramNames a.inputs, '.' ∉ n
  kinds : ∀ k ∈ paramKinds a.inputs, k ∈ G.parse.symbols
  kindNames : ∀ k ∈ paramKinds a.inputs, k ≠ name! "newStack" ∧ k ≠ name! "poppedValues" ∧ k ≠ name! "symbolStack" ∧
    (∀ m, k ≠ name! "__" ++ m) ∧ ∀ i, k ≠ name! "var" ++ LexGen.digits i

/-- What the generated parser must be like for its names to mean what they should. -/
structure ParseOk (G : Gen) : Prop where
  depth : 50 ≤ G.max
  tokens : ∀ p ∈ G.parse.productions, ∀ t ∈ p.2, t < G.tokens.length
  noDot : ∀ k ∈ G.parse.symbols, '.' ∉ k
  noEmit : name! "EmitProduction" ∉ G.parse.symbols
  noAction : ∀ i, actName i ∉ G.parse.symbols
  acts : ∀ a ∈ G.parse.acts, ActOk G a

theorem mget_append {α β : Type} [DecidableEq α] (k : α) : ∀ (l l' : List (α × β)),
    mget k (l ++ l') = (mget k l).or (mget k l')
  | [], l' => by simp [mget]
  | e :: l, l' => by
    simp only [List.cons_append, mget]
    by_cases h : k = e.1
    · simp [h]
    · rw [if_neg h, if_neg h, mget_append k l l']

theorem mget_none {α β : Type} [DecidableEq α] {k : α} : ∀ {l : List (α × β)}, (∀ e ∈ l, e.1 ≠ k) → mget k l = none
  | [], _ => rfl
  | e :: l, h => by
    simp only [mget]
    rw [if_neg fun h' => h e (List.mem_cons_self ..) h'.symm]
    exact mget_none fun e he => h e (List.mem_cons_of_mem _ he)

theorem mget_qualify (p k : Str) : ∀ l : List (Str × Def), mget (p ++ k) (qualify p l) = mget k l
  | [] => rfl
  | e :: l => by
    have := mget_qualify p k l
    simp only [qualify] at this
    simp only [qualify, List.map_cons, mget, this, List.append_cancel_left_eq]

theorem qualify_head {c d : Char} (h : c ≠ d) (p k : Str) (l : List (Str × Def)) :
    mget (d :: k) (qualify (c :: p) l) = none := by
  apply mget_none
  intro e he
  simp only [qualify, List.mem_map] at he
  obtain ⟨x, _, rfl⟩ := he
  simp only [List.cons_append, ne_eq, List.cons.injEq, not_and]
  exact fun h' => absurd h' h

theorem scope_actions (k : Str) : mget (name! "actions." ++ k) (genScope G) = mget k (actionsNames G) := by
  have h1 : mget (name! "actions." ++ k) (qualify (name! "U.") (declare .util utilDecls)) = none := qualify_head (by decide) _ _ _
  have h2 : mget (name! "actions." ++ k) (qualify (name! "L.") (declare .lex lexDecls)) = none := qualify_head (by decide) _ _ _
  have h3 : mget (name! "actions." ++ k) (qualify (name! "type_defs.") (defsNames G)) = none := qualify_head (by decide) _ _ _
  rw [genScope, mget_append, mget_append, mget_append, h1, h2, h3, mget_qualify]
  rfl

theorem digits_noDot (i : Nat) : '.' ∉ LexGen.digits i := by
  intro h
  have := Spec.digits_chars i _ h
  revert this
  decide

theorem actions_dot (hP : ParseOk G) {x : Str} (hx : '.' ∈ x) : mget x (actionsNames G) = none := by
  apply mget_none
  intro e he hex
  simp only [actionsNames, List.cons_append, List.mem_cons, List.mem_append, List.mem_map] at he
  rcases he with rfl | ⟨a, _, rfl⟩ | ⟨k, hk, rfl⟩
  · subst hex; simp at hx
  · subst hex
    simp only [actName, List.mem_append] at hx
    rcases hx with hx | hx
    · revert hx; decide
    · exact digits_noDot _ hx
  · subst hex
    exact hP.noDot k hk hx

theorem actions_scope (hP : ParseOk G) {x : Str} (hx : '.' ∈ x) : prog G .actions x = mget x (genScope G) := by
  rw [prog, mget_append, actions_dot hP hx]
  rfl

theorem actions_pop (hP : ParseOk G) :
    lim U (prog G) .actions (name! "U.PopNStackWithValue") = lim U (prog G) .util (name! "PopNStackWithValue") :=
  lim_alias (by rw [actions_scope hP (by decide)]; rfl)
theorem actions_token (hP : ParseOk G) : lim U (prog G) .actions (name! "L.Token") = lim U (prog G) .lex (name! "Token") :=
  lim_alias (by rw [actions_scope hP (by decide)]; rfl)
theorem actions_symbol (hP : ParseOk G) :
    lim U (prog G) .actions (name! "type_defs.Symbol") = lim U (prog G) .defs (name! "Symbol") :=
  lim_alias (by rw [actions_scope hP (by decide)]; rfl)

theorem mget_symbols (k : Str) : ∀ l : List Str, k ∈ l →
    mget k (l.map fun k => table k (.named k)) = some ⟨.util, [], .lit (.named k)⟩
  | [], h => by simp at h
  | a :: l, h => by
    simp only [List.map_cons, table, mget]
    by_cases e : k = a
    · rw [if_pos e, e]
    · rw [if_neg e]
      exact mget_symbols k l ((List.mem_cons.1 h).resolve_left e)

theorem actions_kind (hP : ParseOk G) {k : Str} (hk : k ∈ G.parse.symbols) :
    mget k (actionsNames G) = some ⟨.util, [], .lit (.named k)⟩ := by
  rw [actionsNames, mget_append, mget_none, mget_symbols k _ hk]
  · rfl
  · intro e he hek
    simp only [List.mem_cons, List.mem_map] at he
    rcases he with rfl | ⟨a, _, rfl⟩
    · subst hek; exact hP.noEmit hk
    · subst hek; exact hP.noAction _ hk

theorem actions_kind_eq (hP : ParseOk G) {k : Str} (hk : k ∈ G.parse.symbols) :
    lim U (prog G) .actions k [] = some (.named k) := by
  apply lim_table
  rw [prog, mget_append, actions_kind hP hk]
  rfl

theorem defs_kind_eq (hP : ParseOk G) {k : Str} (hk : k ∈ G.parse.symbols) :
    lim U (prog G) .defs (name! "actions." ++ k) [] = some (.named k) := by
  apply lim_table
  rw [prog, mget_append, scope_actions, actions_kind hP hk, mget_none]
  · rfl
  · intro e he hek
    simp only [defsNames, table, List.mem_cons, List.not_mem_nil, or_false] at he
    rcases he with rfl | rfl | rfl | rfl | rfl | rfl | rfl | rfl <;> simp at hek

theorem mget_acts (i : Nat) : ∀ l : List ParseGen.Act,
    mget (actName i) (l.map fun a => (actName a.idx, (⟨.actions, [name! "symbolStack"], actExp a⟩ : Def))) =
      (l.find? fun a => decide (a.idx = i)).map fun a => ⟨.actions, [name! "symbolStack"], actExp a⟩
  | [] => rfl
  | a :: l => by
    have ih := mget_acts i l
    simp only [List.map_cons, mget, ih, List.find?_cons]
    by_cases h : a.idx = i
    · simp [h]
    · have : ¬ actName i = actName a.idx := fun e => h (Spec.digits_inj (List.append_cancel_left e)).symm
      simp [h, this]

theorem actions_act (hP : ParseOk G) {i : Nat} {a : ParseGen.Act}
    (ha : (G.parse.acts.find? fun a => decide (a.idx = i)) = some a) :
    prog G .actions (name! "actions." ++ actName i) = some ⟨.actions, [name! "symbolStack"], actExp a⟩ := by
  rw [actions_scope hP (by simp), scope_actions, actionsNames, List.cons_append, mget, if_neg (by simp [actName]), mget_append,
    mget_acts, ha]
  rfl

/-! ## Symbols -/

/-- A token or `undefined`. -/
def tokU : Option Ts.Tok → Ty
  | none => .undef
  | some t => tokTy t

/-- A symbol on the stack. -/
inductive SymTy : Ts.Symb Ty → Ty → Prop
  | token (t : Option Ts.Tok) (j : Ty) (h : ∀ t', t = some t' → t'.value ≠ some .never) :
    SymTy (.token t) (.obj [(.str (name! "kind"), false, .str (name! "token")), (.str (name! "token"), false, tokU t),
      (.str (name! "lmao"), false, j)])
  | nonTerm (k : Str) (v : Ty) :
    SymTy (.nonTerm k v) (.obj [(.str (name! "kind"), false, .str k), (.str (name! "value"), false, v)])

/-- `Symbol`. -/
def symbolTy (G : Gen) : Ty :=
  .union (.obj [(.str (name! "kind"), false, .str (name! "token")), (.str (name! "token"), false, tokenT)] ::
    G.parse.symbols.map fun k => .obj [(.str (name! "kind"), false, .str k), (.str (name! "value"), false, .named k)])

theorem evs_symbolAlts (hP : ParseOk G) : ∀ ks : List Str, (∀ k ∈ ks, k ∈ G.parse.symbols) →
    evs U (lim U (prog G) .defs) [] (symbolAlts ks) =
      some (ks.map fun k => .obj [(.str (name! "kind"), false, .str k), (.str (name! "value"), false, .named k)])
  | [], _ => by simp [symbolAlts, evs]
  | k :: ks, h => by
    have ih := evs_symbolAlts hP ks fun x hx => h x (List.mem_cons_of_mem _ hx)
    have hk := defs_kind_eq (U := U) hP (h k (List.mem_cons_self ..))
    simp only [List.cons_append, List.nil_append] at hk
    simp [symbolAlts, evs, ev, evMems, mget, ih, hk]

theorem symbol_eq (hP : ParseOk G) : lim U (prog G) .defs (name! "Symbol") [] = some (symbolTy G) := by
  have h := evs_symbolAlts (U := U) hP G.parse.symbols fun _ h => h
  have hT : lim U (prog G) .defs (name! "L.Token") [] = some tokenT := by rw [defs_token, tokenT_eq]; rfl
  rw [lim_of (show prog G .defs (name! "Symbol") = some ⟨.defs, [], symbolExp G.parse.symbols⟩ from rfl) rfl]
  simp [symbolExp, ev, evs, evMems, mget, h, hT, symbolTy]

theorem accepts_alts (k : Str) (v : Ty) : ∀ ks : List Str,
    acceptsAny U (ks.map fun k => .obj [(.str (name! "kind"), false, .str k), (.str (name! "value"), false, .named k)])
      (.obj [(.str (name! "kind"), false, .str k), (.str (name! "value"), false, v)]) =
      (decide (k ∈ ks) && accepts U (.named k) v)
  | [] => by simp [acceptsAny]
  | a :: ks => by
    have ih := accepts_alts k v ks
    simp only [List.map_cons, acceptsAny, ih]
    have h1 : accepts U (.obj [(.str (name! "kind"), false, .str a), (.str (name! "value"), false, .named a)])
        (.obj [(.str (name! "kind"), false, .str k), (.str (name! "value"), false, v)]) =
        (decide (k = a) && accepts U (.named a) v) := by
      simp [accepts, lift_obj, lift_str, acceptsObj, member]
    rw [h1]
    by_cases h : k = a
    · subst h; cases accepts U (.named k) v <;> simp
    · simp [h]

theorem accepts_alts_token (t j : Ty) : ∀ ks : List Str,
    acceptsAny U (ks.map fun k => .obj [(.str (name! "kind"), false, .str k), (.str (name! "value"), false, .named k)])
      (.obj [(.str (name! "kind"), false, .str (name! "token")), (.str (name! "token"), false, t), (.str (name! "lmao"), false, j)]) =
      false
  | [] => rfl
  | a :: ks => by
    have ih := accepts_alts_token t j ks
    simp only [List.map_cons, acceptsAny, ih]
    simp [accepts, lift_obj, lift_str, acceptsObj, member]

theorem accepts_tokenT_undef : accepts U tokenT .undef = false := by simp [tokenT, accepts, lift]

theorem accepts_tokU (t : Option Ts.Tok) : accepts U tokenT (tokU t) = t.isSome := by
  cases t with
  | none => exact accepts_tokenT_undef
  | some t => exact accepts_tok t

theorem accepts_symbol {s : Ts.Symb Ty} {t : Ty} (h : SymTy s t) :
    accepts U (symbolTy G) t = Ts.isSymbol (semOf U) G.parse s := by
  cases h with
  | token t j h =>
    simp only [symbolTy, accepts, lift_obj, acceptsAny, accepts_alts_token, Ts.isSymbol]
    simp [acceptsObj, member, accepts, lift_str, accepts_tokU]
  | nonTerm k v =>
    simp only [symbolTy, accepts, lift_obj, acceptsAny, accepts_alts, Ts.isSymbol]
    simp [acceptsObj, member, semOf, accepts]

theorem all_symbols {l : List (Ts.Symb Ty)} {ts : List Ty} (h : List.Forall₂ SymTy l ts) :
    ts.all (accepts U (symbolTy G)) = l.all (Ts.isSymbol (semOf U) G.parse) := by
  induction h with
  | nil => rfl
  | cons h _ ih => simp only [List.all_cons, ih, accepts_symbol h]

theorem accepts_symbols {l : List (Ts.Symb Ty)} {ts : List Ty} (h : List.Forall₂ SymTy l ts) :
    accepts U (.arr (symbolTy G)) (.tup ts) = l.all (Ts.isSymbol (semOf U) G.parse) := by
  rw [← all_symbols (G := G) h]
  simp [accepts, lift]

/-- What popping a list of symbols gives. -/
theorem pop_rel {max : Nat} {α β : Type} {R : α → β → Prop} : ∀ {l : List α} {ts : List β}, List.Forall₂ R l ts →
    ∀ (n : Option Nat) {r : List α} {rs : List β}, List.Forall₂ R r rs →
    match Ts.popNStackWithValueImpl max l n r with
    | none => Ts.popNStackWithValueImpl max ts n rs = none
    | some (a, b) => ∃ a' b', Ts.popNStackWithValueImpl max ts n rs = some (a', b') ∧ List.Forall₂ R a a' ∧ List.Forall₂ R b b'
  | l, ts, h, n, r, rs, hr => by
    match n with
    | none => simp [Ts.popNStackWithValueImpl]
    | some 0 => simpa [Ts.popNStackWithValueImpl] using ⟨h, hr⟩
    | some (n + 1) =>
      cases h with
      | nil => simp [Ts.popNStackWithValueImpl]
      | cons h1 h2 =>
        unfold Ts.popNStackWithValueImpl
        exact pop_rel h2 _ (.cons h1 hr)

/-! ## Conditions -/

theorem mget_mem {α β : Type} [DecidableEq α] {k : α} {v : β} : ∀ {l : List (α × β)}, mget k l = some v → (k, v) ∈ l
  | [], h => by simp [mget] at h
  | e :: l, h => by
    simp only [mget] at h
    by_cases hk : k = e.1
    · rw [if_pos hk, Option.some.injEq] at h
      subst hk h
      exact List.mem_cons_self ..
    · rw [if_neg hk] at h
      exact List.mem_cons_of_mem _ (mget_mem h)

theorem mget_of_mem {α β : Type} [DecidableEq α] {k : α} {v : β} : ∀ {l : List (α × β)}, (l.map (·.1)).Nodup → (k, v) ∈ l →
    mget k l = some v
  | [], _, h => by simp at h
  | e :: l, hn, h => by
    simp only [List.map_cons, List.nodup_cons, List.mem_map] at hn
    simp only [mget]
    rcases List.mem_cons.1 h with rfl | h
    · simp
    · rw [if_neg fun hk => hn.1 ⟨(k, v), h, hk⟩]
      exact mget_of_mem hn.2 h

theorem mget_reverse {α β : Type} [DecidableEq α] (k : α) {l : List (α × β)} (h : (l.map (·.1)).Nodup) :
    mget k l.reverse = mget k l := by
  have h' : (l.reverse.map (·.1)).Nodup := by rw [List.map_reverse]; exact (List.reverse_perm _).nodup_iff.2 h
  apply Option.ext
  intro v
  exact ⟨fun hm => mget_of_mem h (List.mem_reverse.1 (mget_mem hm)),
    fun hm => mget_of_mem h' (List.mem_reverse.2 (mget_mem hm))⟩

/-- What the names in scope of the conditions mean. -/
structure EnvOk (names kinds : List Str) (popped : List (Str × Ts.Symb Ty)) (E0 : Env) : Prop where
  popped : ∀ n s, mget n popped = some s → ∃ t, mget (name! "__" ++ n) E0 = some t ∧ SymTy s t
  kinds : ∀ k ∈ kinds, mget k E0 = none
  token : mget (name! "L.Token") E0 = none
  noPrefix : ∀ n ∈ names, ∀ m ∈ names, n ≠ name! "__" ++ m
  noDot : ∀ n ∈ names, '.' ∉ n

/-- The names and nonterminals of a condition. -/
def condName : ParseGen.Cond → Str
  | .nonTerm n _ => n
  | .isToken n => n
  | .lit n _ => n
  | .text n => n

/-- A condition in terms of the parameters. -/
def CondOk (names kinds : List Str) (popped : List (Str × Ts.Symb Ty)) (c : ParseGen.Cond) : Prop :=
  condName c ∈ names ∧ mget (condName c) popped ≠ none ∧ ∀ n k, c = .nonTerm n k → k ∈ kinds

/-- The conditions on the value of a token come after the condition that it is a token. -/
def Guarded : List Str → List ParseGen.Cond → Prop
  | _, [] => True
  | tok, .nonTerm _ _ :: cs => Guarded tok cs
  | tok, .isToken n :: cs => Guarded (n :: tok) cs
  | tok, .lit n _ :: cs => n ∈ tok ∧ Guarded tok cs
  | tok, .text n :: cs => n ∈ tok ∧ Guarded tok cs

theorem mget_env {names kinds : List Str} {popped : List (Str × Ts.Symb Ty)} {E0 fenv : Env}
    (hE : EnvOk names kinds popped E0) (hk : ∀ e ∈ fenv, e.1 ∈ names) {n : Str} (hn : n ∈ names) {s : Ts.Symb Ty}
    (hs : mget n popped = some s) : ∃ t, mget (name! "__" ++ n) (fenv.reverse ++ E0) = some t ∧ SymTy s t := by
  obtain ⟨t, h1, h2⟩ := hE.popped n s hs
  refine ⟨t, ?_, h2⟩
  rw [mget_append, mget_none, h1]
  · rfl
  · intro e he
    exact hE.noPrefix _ (hk e (List.mem_reverse.1 he)) n hn

theorem tokU_value {t : Ts.Tok} : access (tokTy t) (.str (name! "value")) =
    some (match t.value with | none => .unknown | some w => textTy w) := by
  unfold tokTy
  cases t.value <;> simp [access_objS, mget]

theorem cond_eq (hP : ParseOk G) {names kinds : List Str} {popped : List (Str × Ts.Symb Ty)} {E0 fenv : Env}
    (hE : EnvOk names kinds popped E0) (hk : ∀ e ∈ fenv, e.1 ∈ names) (hd : (fenv.map (·.1)).Nodup)
    (hks : ∀ k ∈ kinds, k ∈ G.parse.symbols)
    (c : ParseGen.Cond) (hc : CondOk names kinds popped c) (tok : List Str) (hg : Guarded tok [c])
    (ht : ∀ n ∈ tok, ∃ t, mget n popped = some (.token (some t))) (T F : Exp) :
    ev U (lim U (prog G) .actions) (fenv.reverse ++ E0) (.cond (condExp c).1 (condExp c).2 T F) =
      match Ts.checkCond (semOf U) popped fenv c with
      | some b => ev U (lim U (prog G) .actions) (b ++ (fenv.reverse ++ E0)) T
      | none => ev U (lim U (prog G) .actions) (fenv.reverse ++ E0) F := by
  obtain ⟨hn, hp, hkind⟩ := hc
  obtain ⟨s, hs⟩ := Option.ne_none_iff_exists'.1 hp
  obtain ⟨t, h1, h2⟩ := mget_env hE hk hn hs
  have hT : lim U (prog G) .actions (name! "L.Token") [] = some tokenT := by rw [actions_token hP, tokenT_eq]; rfl
  have hT' : mget (name! "L.Token") (fenv.reverse ++ E0) = none := by
    rw [mget_append, mget_none, hE.token]
    · rfl
    · intro e he h
      refine hE.noDot _ (hk e (List.mem_reverse.1 he)) ?_
      rw [h]
      decide
  cases c with
  | nonTerm n k =>
    have hkk := hkind n k rfl
    have hnm := actions_kind_eq (U := U) hP (hks k hkk)
    have hm : mget k (fenv.reverse ++ E0) = mget k fenv := by
      rw [mget_append, hE.kinds k hkk, mget_reverse k hd, Option.or_none]
    have hev : ev U (lim U (prog G) .actions) (fenv.reverse ++ E0) (.ref k .nil) =
        some (match mget k fenv with | some u => u | none => .named k) := by
      simp only [ev, hm]
      cases mget k fenv with
      | none => exact hnm
      | some u => rfl
    simp only [condName, List.cons_append, List.nil_append] at h1 hs
    cases h2 with
    | token t j hv =>
      by_cases hkt : name! "token" = k
      · subst hkt
        simp [condExp, Ts.checkCond, hs, ev, h1, early_obj, isPattern, mat, matObj, member, test, accepts, lift_str]
      · simp [condExp, Ts.checkCond, hs, ev, h1, early_obj, isPattern, mat, matObj, member, test, accepts, lift_str, hkt]
    | nonTerm k' v =>
      by_cases hkt : k' = k
      · subst hkt
        have hin : accepts U (match mget k' fenv with | some u => u | none => .named k') v = Ts.inType (semOf U) fenv k' v := by
          unfold Ts.inType
          cases mget k' fenv <;> rfl
        rw [ev] at hev
        by_cases hi : Ts.inType (semOf U) fenv k' v = true
        · simp only [Ts.checkCond, hs, hi, true_and, if_true]
          rw [hi] at hin
          simp [condExp, ev, h1, early_obj, isPattern, mat, matObj, member, test, accepts, lift_str, hev, hin]
        · simp only [Ts.checkCond, hs, hi, and_false, if_false]
          rw [Bool.eq_false_iff.2 hi] at hin
          simp [condExp, ev, h1, early_obj, isPattern, mat, matObj, member, test, accepts, lift_str, hev, hin]
      · simp [condExp, Ts.checkCond, hs, ev, h1, early_obj, isPattern, mat, matObj, member, test, accepts, lift_str, hkt]
  | isToken n =>
    simp only [condName, List.cons_append, List.nil_append] at h1 hs
    cases h2 with
    | token t j hv =>
      cases t with
      | none =>
        simp [condExp, Ts.checkCond, hs, ev, h1, early_obj, isPattern, mat, matObj, member, test, accepts, lift_str, hT, hT', tokU,
          accepts_tokenT_undef]
      | some t =>
        simp [condExp, Ts.checkCond, hs, ev, h1, early_obj, isPattern, mat, matObj, member, test, accepts, lift_str, hT, hT', tokU,
          accepts_tok]
    | nonTerm k v =>
      by_cases hkt : k = name! "token"
      · simp [condExp, Ts.checkCond, hs, ev, h1, early_obj, isPattern, mat, matObj, member, test, accepts, lift_str, hkt]
      · simp [condExp, Ts.checkCond, hs, ev, h1, early_obj, isPattern, mat, matObj, member, test, accepts, lift_str, hkt]
  | lit n w =>
    obtain ⟨t, htt⟩ := ht n hg.1
    simp only [condName, List.cons_append, List.nil_append] at h1 hs
    rw [hs, Option.some.injEq] at htt
    subst htt
    cases h2 with
    | token _ j hv =>
      have ha : access (.obj [(.str (name! "kind"), false, .str (name! "token")), (.str (name! "token"), false, tokU (some t)),
          (.str (name! "lmao"), false, j)]) (.str (name! "token")) = some (tokTy t) := by
        simp [access, memberAt, memberOr, member, tokU]
      have hv' := tokU_value (t := t)
      have hnv := hv t rfl
      obtain ⟨kd, val⟩ := t
      cases val with
      | none =>
        simp only at hv'
        simp [condExp, Ts.checkCond, hs, ev, h1, ha, hv', early_unknown, isPattern, mat, test, accepts, lift_unknown]
      | some x =>
        cases x with
        | never => exact absurd rfl hnv
        | undefined =>
          simp only [textTy] at hv'
          simp [condExp, Ts.checkCond, hs, ev, h1, ha, hv', early_undef, isPattern, mat, test, accepts, lift_undef]
        | val x =>
          simp only [textTy] at hv'
          by_cases hx : x = w
          · subst hx
            simp [condExp, Ts.checkCond, hs, ev, h1, ha, hv', early_str, isPattern, mat, test, accepts, lift_str, semOf]
          · simp [condExp, Ts.checkCond, hs, ev, h1, ha, hv', early_str, isPattern, mat, test, accepts, lift_str, hx]
  | text n =>
    obtain ⟨t, htt⟩ := ht n hg.1
    simp only [condName, List.cons_append, List.nil_append] at h1 hs
    rw [hs, Option.some.injEq] at htt
    subst htt
    cases h2 with
    | token _ j hv =>
      have ha : access (.obj [(.str (name! "kind"), false, .str (name! "token")), (.str (name! "token"), false, tokU (some t)),
          (.str (name! "lmao"), false, j)]) (.str (name! "token")) = some (tokTy t) := by
        simp [access, memberAt, memberOr, member, tokU]
      have hv' := tokU_value (t := t)
      have hnv := hv t rfl
      obtain ⟨kd, val⟩ := t
      cases val with
      | none =>
        simp only at hv'
        simp [condExp, Ts.checkCond, hs, ev, h1, ha, hv', early_unknown, isPattern, mat, test, accepts, lift_unknown]
      | some x =>
        cases x with
        | never => exact absurd rfl hnv
        | undefined =>
          simp only [textTy] at hv'
          simp [condExp, Ts.checkCond, hs, ev, h1, ha, hv', early_undef, isPattern, mat, test, accepts, lift_undef]
        | val x =>
          simp only [textTy] at hv'
          simp [condExp, Ts.checkCond, hs, ev, h1, ha, hv', early_str, isPattern, mat, test, accepts, lift_str, semOf]

theorem checkCond_bound {S : Ts.Sem Ty} {popped : List (Str × Ts.Symb Ty)} {fenv b : Env} {c : ParseGen.Cond}
    (h : Ts.checkCond S popped fenv c = some b) :
    b.reverse = b ∧ (∀ cs, b.map (·.1) ++ bound cs = bound (c :: cs)) ∧ (∀ e ∈ b, e.1 = condName c) ∧
      ∀ n, c = .isToken n → ∃ t, mget n popped = some (.token (some t)) := by
  cases c with
  | nonTerm n k =>
    simp only [Ts.checkCond] at h
    split at h
    · split at h
      · cases h; simp [bound, condName]
      · cases h
    · cases h
  | isToken n =>
    simp only [Ts.checkCond] at h
    split at h
    · next t ht =>
      cases h
      refine ⟨rfl, by simp [bound], by simp, ?_⟩
      intro m hm
      cases hm
      exact ⟨t, ht⟩
    · cases h
  | lit n w =>
    simp only [Ts.checkCond] at h
    split at h
    · split at h
      · cases h; simp [bound, condName]
      · cases h
    · cases h
  | text n =>
    simp only [Ts.checkCond] at h
    split at h
    · cases h; simp [bound, condName]
    · cases h

theorem conds_eq (hP : ParseOk G) {names kinds : List Str} {popped : List (Str × Ts.Symb Ty)} {E0 : Env}
    (hE : EnvOk names kinds popped E0) (hks : ∀ k ∈ kinds, k ∈ G.parse.symbols) (result : Exp) :
    ∀ (cs : List ParseGen.Cond) (es : List ParseGen.Msg) (fenv : Env) (tok : List Str),
    (∀ c ∈ cs, CondOk names kinds popped c) → Guarded tok cs → (∀ n ∈ tok, ∃ t, mget n popped = some (.token (some t))) →
    (∀ e ∈ fenv, e.1 ∈ names) → (fenv.map (·.1) ++ bound cs).Nodup →
    match Ts.runConds (semOf U) popped cs es fenv with
    | .ok env => ev U (lim U (prog G) .actions) (fenv.reverse ++ E0) (condsExp result cs es) =
        ev U (lim U (prog G) .actions) (env.reverse ++ E0) result ∧ env.map (·.1) = fenv.map (·.1) ++ bound cs
    | .error (some m) => ev U (lim U (prog G) .actions) (fenv.reverse ++ E0) (condsExp result cs es) = some (.str (msgText m))
    | .error none => True := by
  intro cs
  induction cs with
  | nil => intro es fenv tok _ _ _ _ _; simp [Ts.runConds, condsExp, bound]
  | cons c cs ih =>
    intro es fenv tok hc hg ht hk hd
    have hd1 : (fenv.map (·.1)).Nodup := (List.nodup_append.1 hd).1
    have hg1 : Guarded tok [c] := by
      cases c <;> simp only [Guarded] at hg ⊢ <;> first | exact ⟨hg.1, trivial⟩ | trivial
    have hstep := cond_eq (U := U) hP hE hk hd1 hks c (hc c (List.mem_cons_self ..)) tok hg1 ht
      (condsExp result cs es.dropLast) (.lit (match es.getLast? with | some m => .str (msgText m) | none => .never))
    cases hcc : Ts.checkCond (semOf U) popped fenv c with
    | none =>
      rw [hcc] at hstep
      simp only [Ts.runConds, condsExp, hcc]
      cases hl : es.getLast? with
      | none => trivial
      | some m =>
        simp only [hl, ev] at hstep ⊢
        exact hstep
    | some b =>
      rw [hcc] at hstep
      obtain ⟨hb1, hb2, hb3, hb4⟩ := checkCond_bound hcc
      have hrev : b ++ (fenv.reverse ++ E0) = (fenv ++ b).reverse ++ E0 := by
        rw [List.reverse_append, hb1, List.append_assoc]
      dsimp only at hstep
      rw [hrev] at hstep
      have hd' : ((fenv ++ b).map (·.1) ++ bound cs).Nodup := by
        rw [List.map_append, List.append_assoc, hb2]
        exact hd
      have hk' : ∀ e ∈ fenv ++ b, e.1 ∈ names := by
        intro e he
        rcases List.mem_append.1 he with he | he
        · exact hk e he
        · rw [hb3 e he]
          exact (hc c (List.mem_cons_self ..)).1
      have hc' : ∀ c ∈ cs, CondOk names kinds popped c := fun x hx => hc x (List.mem_cons_of_mem _ hx)
      have key : ∃ tok', Guarded tok' cs ∧ ∀ n ∈ tok', ∃ t, mget n popped = some (.token (some t)) := by
        cases c with
        | nonTerm n k => exact ⟨tok, hg, ht⟩
        | isToken n =>
          refine ⟨n :: tok, hg, ?_⟩
          intro m hm
          rcases List.mem_cons.1 hm with rfl | hm
          · exact hb4 _ rfl
          · exact ht m hm
        | lit n w => exact ⟨tok, hg.2, ht⟩
        | text n => exact ⟨tok, hg.2, ht⟩
      obtain ⟨tok', hg', ht'⟩ := key
      have := ih es.dropLast (fenv ++ b) tok' hc' hg' ht' hk' hd'
      simp only [Ts.runConds, condsExp, hcc]
      rw [List.map_append, List.append_assoc, hb2] at this
      generalize Ts.runConds (semOf U) popped cs es.dropLast (fenv ++ b) = r at this
      match r, this with
      | .ok env, this => exact ⟨hstep.trans this.1, this.2⟩
      | .error (some m), this => exact hstep.trans this
      | .error none, _ => trivial

/-! ## Actions -/

theorem bound_append : ∀ cs cs' : List ParseGen.Cond, bound (cs ++ cs') = bound cs ++ bound cs'
  | [], _ => rfl
  | .nonTerm n k :: cs, cs' => by simp [bound, bound_append cs cs']
  | .isToken n :: cs, cs' => by simp [bound, bound_append cs cs']
  | .lit n k :: cs, cs' => by simp [bound, bound_append cs cs']
  | .text n :: cs, cs' => by simp [bound, bound_append cs cs']

theorem bound_checks (act : Nat) : ∀ (ps : List ParseGen.Param) (i : Nat),
    List.Sublist (bound (ParseGen.checks act i ps).1) (paramNames ps)
  | [], i => by simp [ParseGen.checks, bound]
  | p :: ps, i => by
    have ih := bound_checks act ps (i + 1)
    simp only [ParseGen.checks, bound_append]
    cases p with
    | named n q =>
      cases q with
      | named m r => simpa [ParseGen.paramChecks, bound, paramNames] using ih.cons n
      | nonTerm k => simpa [ParseGen.paramChecks, bound, paramNames] using ih
      | strLit k => simpa [ParseGen.paramChecks, bound, paramNames] using ih
      | regex k => simpa [ParseGen.paramChecks, bound, paramNames] using ih
    | nonTerm k => simpa [ParseGen.paramChecks, bound, paramNames] using ih
    | strLit k => simpa [ParseGen.paramChecks, bound, paramNames] using ih
    | regex k => simpa [ParseGen.paramChecks, bound, paramNames] using ih

theorem guarded_checks (act : Nat) : ∀ (ps : List ParseGen.Param) (i : Nat) (tok : List Str),
    Guarded tok (ParseGen.checks act i ps).1
  | [], i, tok => by simp [ParseGen.checks, Guarded]
  | p :: ps, i, tok => by
    have ih := guarded_checks act ps (i + 1)
    simp only [ParseGen.checks]
    cases p with
    | named n q =>
      cases q with
      | named m r => simpa [ParseGen.paramChecks, Guarded] using ih _
      | nonTerm k => simpa [ParseGen.paramChecks, Guarded] using ih _
      | strLit k => simpa [ParseGen.paramChecks, Guarded] using ih _
      | regex k => simpa [ParseGen.paramChecks, Guarded] using ih _
    | nonTerm k => simpa [ParseGen.paramChecks, Guarded] using ih _
    | strLit k => simpa [ParseGen.paramChecks, Guarded] using ih _
    | regex k => simpa [ParseGen.paramChecks, Guarded] using ih _

theorem names_checks (act : Nat) : ∀ (ps : List ParseGen.Param) (i : Nat), ∀ c ∈ (ParseGen.checks act i ps).1,
    condName c ∈ paramNames ps ∧ ∀ n k, c = .nonTerm n k → k ∈ paramKinds ps
  | [], i => by simp [ParseGen.checks]
  | p :: ps, i => by
    have ih := names_checks act ps (i + 1)
    intro c hc
    simp only [ParseGen.checks, List.mem_append] at hc
    rcases hc with hc | hc
    · cases p with
      | named n q =>
        cases q with
        | named m r => simp [ParseGen.paramChecks] at hc
        | nonTerm k =>
          simp [ParseGen.paramChecks] at hc
          subst hc
          simp [condName, paramNames, paramKinds]
        | strLit k =>
          simp [ParseGen.paramChecks] at hc
          rcases hc with rfl | rfl <;> simp [condName, paramNames]
        | regex k =>
          simp [ParseGen.paramChecks] at hc
          rcases hc with rfl | rfl <;> simp [condName, paramNames]
      | nonTerm k => simp [ParseGen.paramChecks] at hc
      | strLit k => simp [ParseGen.paramChecks] at hc
      | regex k => simp [ParseGen.paramChecks] at hc
    · obtain ⟨h1, h2⟩ := ih c hc
      cases p with
      | named n q =>
        refine ⟨by simp [paramNames, h1], fun n k h => ?_⟩
        have := h2 n k h
        cases q <;> simp [paramKinds, this]
      | nonTerm k => exact ⟨h1, h2⟩
      | strLit k => exact ⟨h1, h2⟩
      | regex k => exact ⟨h1, h2⟩

theorem inferNames_length : ∀ (ps : List ParseGen.Param) (i : Nat), (inferNames i ps).length = ps.length
  | [], _ => rfl
  | .named n _ :: ps, i => by simp [inferNames, inferNames_length ps]
  | .nonTerm k :: ps, i => by simp [inferNames, inferNames_length ps]
  | .strLit k :: ps, i => by simp [inferNames, inferNames_length ps]
  | .regex k :: ps, i => by simp [inferNames, inferNames_length ps]

theorem inferNames_form : ∀ (ps : List ParseGen.Param) (i : Nat), ∀ x ∈ inferNames i ps,
    (∃ m, x = name! "__" ++ m) ∨ ∃ j, x = name! "var" ++ LexGen.digits j
  | [], _ => by simp [inferNames]
  | .named n _ :: ps, i => by
    intro x hx
    rcases List.mem_cons.1 hx with rfl | hx
    · exact .inl ⟨n, rfl⟩
    · exact inferNames_form ps i x hx
  | .nonTerm k :: ps, i => by
    intro x hx
    rcases List.mem_cons.1 hx with rfl | hx
    · exact .inr ⟨i, rfl⟩
    · exact inferNames_form ps (i + 1) x hx
  | .strLit k :: ps, i => by
    intro x hx
    rcases List.mem_cons.1 hx with rfl | hx
    · exact .inr ⟨i, rfl⟩
    · exact inferNames_form ps (i + 1) x hx
  | .regex k :: ps, i => by
    intro x hx
    rcases List.mem_cons.1 hx with rfl | hx
    · exact .inr ⟨i, rfl⟩
    · exact inferNames_form ps (i + 1) x hx

theorem matTup_infer {call : Call} {env : Env} : ∀ (xs : List Str) (vs : List Ty),
    matTup U call env vs (inferExps xs) = some (if xs.length = vs.length then some (xs.zip vs) else none)
  | [], [] => by simp [inferExps, matTup]
  | [], v :: vs => by simp [inferExps, matTup]
  | x :: xs, [] => by simp [inferExps, matTup]
  | x :: xs, v :: vs => by
    have ih := matTup_infer (call := call) (env := env) xs vs
    simp only [inferExps, matTup, isPattern, if_true, mat, Option.bind_some, ih, List.length_cons, Nat.add_right_cancel_iff]
    by_cases h : xs.length = vs.length <;> simp [h]

theorem popped_zip : ∀ (ps : List ParseGen.Param) (i : Nat) (vs : List (Ts.Symb Ty)) (ts : List Ty), List.Forall₂ SymTy vs ts →
    ∀ n s, mget n (Ts.poppedNames ps vs) = some s →
    ∃ t, mget (name! "__" ++ n) ((inferNames i ps).zip ts) = some t ∧ SymTy s t
  | [], _, _, _, _, n, s, h => by simp [Ts.poppedNames, mget] at h
  | p :: ps, i, [], _, _, n, s, h => by simp [Ts.poppedNames, mget] at h
  | p :: ps, i, v :: vs, t :: ts, .cons h1 h2, n, s, h => by
    have skip : ∀ j, (mget n (Ts.poppedNames ps vs) = some s) →
        ∃ t', mget (name! "__" ++ n) (((name! "var" ++ LexGen.digits i) :: inferNames j ps).zip (t :: ts)) = some t' ∧ SymTy s t' := by
      intro j h
      obtain ⟨t', e, h'⟩ := popped_zip ps j vs ts h2 n s h
      refine ⟨t', ?_, h'⟩
      rw [List.zip_cons_cons, mget, if_neg (by simp), e]
    cases p with
    | named m q =>
      simp only [Ts.poppedNames, List.zip_cons_cons, List.filterMap_cons, mget] at h
      simp only [inferNames, List.zip_cons_cons, mget, List.append_cancel_left_eq]
      by_cases hm : n = m
      · rw [if_pos hm, Option.some.injEq] at h
        subst h
        exact ⟨t, if_pos hm, h1⟩
      · rw [if_neg hm] at h
        obtain ⟨t', e, h'⟩ := popped_zip ps i vs ts h2 n s h
        exact ⟨t', by rw [if_neg hm, e], h'⟩
    | nonTerm k => exact skip _ h
    | strLit k => exact skip _ h
    | regex k => exact skip _ h

theorem poppedNames_some : ∀ (ps : List ParseGen.Param) (vs : List (Ts.Symb Ty)), vs.length = ps.length →
    ∀ n ∈ paramNames ps, mget n (Ts.poppedNames ps vs) ≠ none
  | [], _, _, n, h => by simp [paramNames] at h
  | p :: ps, [], hl, _, _ => by simp at hl
  | p :: ps, v :: vs, hl, n, h => by
    have ih := poppedNames_some ps vs (by simpa using hl) n
    cases p with
    | named m q =>
      simp only [Ts.poppedNames, List.zip_cons_cons, List.filterMap_cons, mget]
      by_cases hm : n = m
      · simp [hm]
      · rw [if_neg hm]
        exact ih ((List.mem_cons.1 h).resolve_left hm)
    | nonTerm k => exact ih h
    | strLit k => exact ih h
    | regex k => exact ih h

/-- The result of `EmitProduction`. -/
def EmitTy : Ts.Emit Ty → Ty → Prop
  | .stack l, t => ∃ ts, t = .tup ts ∧ List.Forall₂ SymTy l ts
  | .error m, t => t = .str (msgText m)
  | .other, _ => True

theorem map_keys : ∀ (l : Env) (f : Str → Option Ty), (∀ e ∈ l, f e.1 = some e.2) →
    (l.map (·.1)).map (fun x => (x, (f x).getD .unknown)) = l
  | [], _, _ => rfl
  | e :: l, f, h => by
    have ih := map_keys l f fun x hx => h x (List.mem_cons_of_mem _ hx)
    simp only [List.map_cons, ih, h e (List.mem_cons_self ..), Option.getD_some]

theorem runAct_eq (hP : ParseOk G) {a : ParseGen.Act} (ha : ActOk G a) {stack : List (Ts.Symb Ty)} {ts : List Ty}
    (h : List.Forall₂ SymTy stack ts) (ho : Ts.runAct G.max (semOf U) G.parse a stack ≠ .other) :
    ∃ t, ev U (lim U (prog G) .actions) [(name! "symbolStack", .tup ts)] (actExp a) = some t ∧
      EmitTy (Ts.runAct G.max (semOf U) G.parse a stack) t := by
  have hpop := pop_rel (max := G.max) h (some a.inputs.length) (r := []) (rs := []) .nil
  have hpopT := popNStackWithValue_eq (U := U) (G := G) ts (some a.inputs.length)
  rw [Ts.runAct] at ho ⊢
  rw [Ts.popNStackWithValue] at ho hpopT ⊢
  cases hp : Ts.popNStackWithValueImpl G.max stack (some a.inputs.length) [] with
  | none => simp [hp] at ho
  | some r =>
    obtain ⟨newStack, popped⟩ := r
    simp only [hp] at hpop ho ⊢
    obtain ⟨nt, pt, hr, hn, hpp⟩ := hpop
    simp only [hr, pair?, num?] at hpopT
    by_cases hl : popped.length = a.inputs.length
    · rw [if_pos hl] at ho ⊢
      by_cases hs : newStack.all (Ts.isSymbol (semOf U) G.parse) = true
      · rw [if_pos hs] at ho ⊢
        have hlen : (inferNames 0 a.inputs).length = pt.length := by rw [inferNames_length, ← hl, hpp.length_eq]
        let E0 : Env := (inferNames 0 a.inputs).zip pt ++
          ([(name! "newStack", .tup nt), (name! "poppedValues", .tup pt)] ++ [(name! "symbolStack", .tup ts)])
        have hacc : accepts U (.arr (symbolTy G)) (.tup nt) = true := by rw [accepts_symbols hn, hs]
        have hzip : ∀ x, (∀ m, x ≠ name! "__" ++ m) → (∀ i, x ≠ name! "var" ++ LexGen.digits i) →
            mget x ((inferNames 0 a.inputs).zip pt) = none := by
          intro x h1 h2
          apply mget_none
          intro e he hx
          rcases inferNames_form a.inputs 0 e.1 (List.of_mem_zip he).1 with ⟨m, hm⟩ | ⟨i, hi⟩
          · exact h1 m (hx ▸ hm)
          · exact h2 i (hx ▸ hi)
        have hns : mget (name! "newStack") E0 = some (.tup nt) := by
          show mget _ (_ ++ _) = _
          rw [mget_append, hzip _ (by simp) (by simp)]
          rfl
        have hE : EnvOk (paramNames a.inputs) (paramKinds a.inputs) (Ts.poppedNames a.inputs popped) E0 := by
          refine ⟨?_, ?_, ?_, ha.noPrefix, ha.noDot⟩
          · intro n s hs
            obtain ⟨t, h1, h2⟩ := popped_zip a.inputs 0 popped pt hpp n s hs
            refine ⟨t, ?_, h2⟩
            show mget _ (_ ++ _) = _
            rw [mget_append, h1]
            rfl
          · intro k hk
            obtain ⟨h1, h2, h3, h4, h5⟩ := ha.kindNames k hk
            show mget _ (_ ++ _) = _
            rw [mget_append, hzip k h4 h5]
            simp [mget, h1, h2, h3]
          · show mget _ (_ ++ _) = _
            rw [mget_append, hzip _ (by simp) (by simp)]
            rfl
        have hc := conds_eq (U := U) hP hE ha.kinds (callExp a) (ParseGen.validate a).1 (ParseGen.validate a).2 [] []
          (fun c hc => ⟨(names_checks a.idx a.inputs 0 c hc).1,
            poppedNames_some a.inputs popped hl _ (names_checks a.idx a.inputs 0 c hc).1,
            (names_checks a.idx a.inputs 0 c hc).2⟩)
          (guarded_checks a.idx a.inputs 0 []) (by simp) (by simp)
          (by simpa [ParseGen.validate] using (bound_checks a.idx a.inputs 0).nodup ha.nodup)
        have hev : ev U (lim U (prog G) .actions) [(name! "symbolStack", .tup ts)] (actExp a) =
            ev U (lim U (prog G) .actions) E0 (condsExp (callExp a) (ParseGen.validate a).1 (ParseGen.validate a).2) := by
          have hsy : lim U (prog G) .actions (name! "type_defs.Symbol") [] = some (symbolTy G) := by
            rw [actions_symbol hP, symbol_eq hP]
          have hns' : mget (name! "newStack") ((inferNames 0 a.inputs).zip pt ++
            [(name! "newStack", .tup nt), (name! "poppedValues", .tup pt), (name! "symbolStack", .tup ts)]) = some (.tup nt) := hns
          have hsym' : mget (name! "type_defs.Symbol") ((inferNames 0 a.inputs).zip pt ++
            [(name! "newStack", .tup nt), (name! "poppedValues", .tup pt), (name! "symbolStack", .tup ts)]) = none := by
            rw [mget_append, hzip _ (by simp) (by simp)]
            rfl
          simp [actExp, actWith, evs, naked, actions_pop hP, hpopT, early_tup, matTup, matTup_infer, hlen, mat, mget, isPattern, ev, hns', hsym', hsy,
            test, hacc, E0]
        rw [hev]
        simp only [List.reverse_nil, List.nil_append, List.map_nil] at hc
        cases hrc : Ts.runConds (semOf U) (Ts.poppedNames a.inputs popped) (ParseGen.validate a).1 (ParseGen.validate a).2 [] with
        | error m =>
          rw [hrc] at hc
          cases m with
          | none => simp [hrc] at ho
          | some m => exact ⟨_, hc, rfl⟩
        | ok env =>
          rw [hrc] at hc
          obtain ⟨h1, h2⟩ := hc
          have hnd : (env.map (·.1)).Nodup := by
            rw [h2]
            exact (bound_checks a.idx a.inputs 0).nodup ha.nodup
          have hsub : ∀ e ∈ env, e.1 ∈ paramNames a.inputs := by
            intro e he
            refine (bound_checks a.idx a.inputs 0).subset ?_
            have : e.1 ∈ env.map (·.1) := List.mem_map_of_mem he
            rwa [h2] at this
          have hno : mget (name! "newStack") env = none := by
            apply mget_none
            intro e he hx
            exact ha.noStack (hx ▸ hsub e he)
          have hns' : mget (name! "newStack") (env.reverse ++ E0) = some (.tup nt) := by
            rw [mget_append, mget_reverse _ hnd, hno, hns]
            rfl
          have hkeys : (bound (ParseGen.validate a).1).map (fun x => (x, (mget x (env.reverse ++ E0)).getD .unknown)) = env := by
            rw [← h2]
            apply map_keys
            intro e he
            rw [mget_append, mget_reverse _ hnd, mget_of_mem hnd (show (e.1, e.2) ∈ env from he)]
            rfl
          have hno' : mget "newStack".toList env = none := hno
          have hcv : (semOf U).code a.code env = U.code a.code env := rfl
          rw [h1]
          cases hv : U.code a.code env with
          | none => simp [hrc, hcv, hv] at ho
          | some v =>
            refine ⟨.tup (.obj [(.str (name! "kind"), false, .str a.name), (.str (name! "value"), false, v)] :: nt), ?_, ?_⟩
            · simp [callExp, callWith, ev, evs, evMems, hns', splice, hkeys, hv]
            · simp only [hno', hcv, hv]
              exact ⟨_, rfl, .cons (.nonTerm _ _) hn⟩
      · rw [if_neg hs] at ho
        exact absurd rfl ho
    · rw [if_neg hl] at ho
      exact absurd rfl ho

theorem emitExp_eq (hP : ParseOk G) {p : Nat} {stack : List (Ts.Symb Ty)} {ts : List Ty}
    (h : List.Forall₂ SymTy stack ts) (ho : Ts.emitProduction G.max (semOf U) G.parse p stack ≠ .other) :
    ∃ t, lim U (prog G) .actions (name! "EmitProduction") [.num p, .tup ts] = some t ∧
      EmitTy (Ts.emitProduction G.max (semOf U) G.parse p stack) t := by
  rw [Ts.emitProduction] at ho ⊢
  cases hf : G.parse.acts.find? (fun a => decide (a.idx = p)) with
  | none => simp [hf] at ho
  | some a =>
    simp only [hf] at ho ⊢
    obtain ⟨t, h1, h2⟩ := runAct_eq (U := U) hP (hP.acts a (List.mem_of_find?_eq_some hf)) h ho
    refine ⟨t, ?_, h2⟩
    have hcall : lim U (prog G) .actions (name! "actions." ++ actName p) [.tup ts] = some t := by
      rw [lim_of (actions_act hP hf) rfl]
      exact h1
    rw [lim_of (show prog G .actions (name! "EmitProduction") =
      some ⟨.actions, [name! "prodIdx", name! "symbolStack"], emitExp G.parse.acts⟩ from rfl) rfl]
    have key : ∀ l : List ParseGen.Act, l.find? (fun a => decide (a.idx = p)) = some a →
        ev U (lim U (prog G) .actions) [(name! "prodIdx", .num p), (name! "symbolStack", .tup ts)] (emitExp l) = some t := by
      intro l
      induction l with
      | nil => simp
      | cons b l ih =>
        intro hb
        simp only [List.find?_cons] at hb
        by_cases hbp : b.idx = p
        · simp only [List.cons_append, List.nil_append] at hcall
          ts_eval [emitExp, hbp, hcall]
        · have hbp' : ¬ p = b.idx := fun e => hbp e.symm
          simp only [hbp, decide_false] at hb
          have := ih hb
          ts_eval [emitExp, hbp', this]
    exact key G.parse.acts hf

/-! ## `Parse` -/

/-- A number or `undefined` in a template literal. -/
def numText : Option Nat → Str
  | none => name! "undefined"
  | some n => LexGen.digits n

/-- The result of `Parse` (ts/parse.ts:128-180). -/
def ParseTy : Ts.ParseOut Ty → Ty → Prop
  | .symbols l, t => ∃ ts, t = .tup ts ∧ List.Forall₂ SymTy l ts
  | .exceeded, t => t = .str (name! "exceeded max recursion depth")
  | .invalidToken a l, t =>
    ∃ ts, t = .tup [.str (name! "error: invalid token " ++ numText a), .tup ts] ∧ List.Forall₂ SymTy l ts
  | .emitError .other _, _ => True
  | .emitError e l, t => ∃ w te ts, t = .tup [.str w, te, .tup ts] ∧ EmitTy e te ∧ List.Forall₂ SymTy l ts
  | .noGoto, t => t = .str (name! "not good")
  | .badKind k, t => t = .str (name! "error: head['kind'] is not a valid token kind: " ++ k)
  | .noNext, t => t = .str (name! "error: todo fill this out")
  | .badStack, t => t = .str (name! "error: stack is empty") ∨ t = .str (name! "unreachable: `newStack` is always a number")
  | .noProduction, t => t = .str (name! "error: `ruleIdx` is not a key in `Productions`")
  | .never, _ => True

/-- Does the model say what the result is? -/
def Known : Ts.ParseOut Ty → Prop
  | .never => False
  | .emitError .other _ => False
  | _ => True

theorem popNStack_map {α β : Type} (max : Nat) (f : α → β) : ∀ (l : List α) (n : Option Nat),
    Ts.popNStack max (l.map f) n = (Ts.popNStack max l n).map (List.map f)
  | l, none => by unfold Ts.popNStack; rfl
  | l, some 0 => by unfold Ts.popNStack; rfl
  | [], some (n + 1) => by unfold Ts.popNStack; rfl
  | a :: l, some (n + 1) => by
    unfold Ts.popNStack
    exact popNStack_map max f l _

theorem mget_zipIdx {α : Type} (f : α → Ty) : ∀ (l : List α) (i p : Nat),
    mget (p + i) ((l.zipIdx i).map fun e => (e.2, f e.1)) = l[p]?.map f
  | [], _, _ => rfl
  | a :: l, i, 0 => by simp [mget]
  | a :: l, i, p + 1 => by
    have ih := mget_zipIdx f l (i + 1) p
    rw [show p + (i + 1) = p + 1 + i by omega] at ih
    simp only [List.zipIdx_cons, List.map_cons, mget, ih]
    rw [if_neg (by omega)]
    simp

/-- `Production`. -/
def prodT (G : Gen) : Ty := .obj [(.str (name! "name"), false, .string),
  (.str (name! "tokens"), false, .arr (keysN (G.tokens.zipIdx.map fun e => (e.2, tokenTy e.1))))]

theorem production_eq : lim U (prog G) .defs (name! "Production") [] = some (prodT G) := by
  rw [lim_of (show prog G .defs (name! "Production") = some ⟨.defs, [], productionExp⟩ from rfl) rfl]
  ts_eval [productionExp, tokTable_eq, prodT]

theorem accepts_production (p : Str × List Nat) (h : ∀ t ∈ p.2, t < G.tokens.length) :
    accepts U (prodT G) (productionTy p) = true := by
  have hk : ∀ t ∈ p.2, accepts U (keysN (G.tokens.zipIdx.map fun e => (e.2, tokenTy e.1))) (.num t) = true := by
    intro t ht
    have := mget_zipIdx tokenTy G.tokens 0 t
    rw [Nat.add_zero] at this
    rw [accepts_keysN, this, List.getElem?_eq_getElem (h t ht)]
    rfl
  simp only [prodT, productionTy, objS, nums, accepts, lift_obj, acceptsObj, List.map_cons, List.map_nil, member]
  simpa [lift_str, lift_tup] using hk

theorem mget_prod (p : Nat) : mget p (G.parse.productions.zipIdx.map fun e => (e.2, productionTy e.1)) =
    G.parse.productions[p]?.map productionTy := by
  have := mget_zipIdx productionTy G.parse.productions 0 p
  rwa [Nat.add_zero] at this

theorem parseImplShift_eq (toks : List Ts.Tok) (input stack : List Nat) (j i : Nat) (a a' : Option Nat) (i' depth : Nat)
    (ts : List Ty) (hd : depth + 1 ≤ G.max) (h : Ts.nextToken G.max a i input = some (a', i')) :
    lim U (prog G) .parse (name! "ParseImplShift") [.num j, .tup (toks.map tokTy), .tup (input.map .num), .tup (stack.map .num),
        .num i, numU a, .tup ts, .num (depth + 1)] =
      match a' with
      | none => some (.str (name! "error: todo fill this out"))
      | some a' => lim U (prog G) .parse (name! "ParseImpl") [.tup (toks.map tokTy), .tup (input.map .num),
          .tup ((j :: stack).map .num), .num i', .num a',
          .tup (.obj [(.str (name! "kind"), false, .str (name! "token")), (.str (name! "token"), false, tokU toks[i]?),
            (.str (name! "lmao"), false, .num j)] :: ts), .num depth] := by
  have hpred := pred_eq (U := U) (G := G) (some (depth + 1))
  rw [Ts.pred_ok hd] at hpred
  simp only [num?.eq_2, Nat.add_sub_cancel] at hpred
  have hn := nextToken_eq (U := U) a i input _ h
  have ht : (Option.map tokTy toks[i]?).getD .undef = tokU toks[i]? := by
    cases toks[i]? <;> rfl
  rw [lim_decl parse.ParseImplShift rfl rfl]
  cases a' with
  | none =>
    change _ = some (Ty.tup [.undef, .num i']) at hn
    ts_eval [parse.ParseImplShift, hn, acceptsTup]
  | some a' =>
    change _ = some (Ty.tup [.num a', .num i']) at hn
    simp [ev, evs, evMems, parse.ParseImplShift, hn, mget, naked, isPattern, mat, early_tup, test, accepts, lift_num,
      lift_tup, acceptsTup, access_tup, splice, ht, parse_pred, hpred]

/-- The arguments of `ParseImplReduce` after the production. -/
def reduceArgs (toks : List Ts.Tok) (input stack : List Nat) (i : Nat) (a : Option Nat) (ts : List Ty) (depth : Nat) : List Ty :=
  [.tup (toks.map tokTy), .tup (input.map .num), .tup (stack.map .num), .num i, numU a, .tup ts, .num depth]

theorem access_prod_name (p : Str × List Nat) : access (productionTy p) (.str (name! "name")) = some (.str p.1) := by
  rw [productionTy, access_objS]; rfl

theorem access_prod_tokens (p : Str × List Nat) : access (productionTy p) (.str (name! "tokens")) = some (nums p.2) := by
  rw [productionTy, access_objS]; rfl

theorem accepts_num (n : Nat) : accepts U .number (.num n) = true := rfl

section Reduce
variable (hP : ParseOk G) (toks : List Ts.Tok) (input : List Nat) (p i : Nat) (a : Option Nat) (depth : Nat) (prod : Str × List Nat)
  (stack : List Nat) {syms : List (Ts.Symb Ty)} {ts : List Ty} (hd : depth + 1 ≤ G.max)

theorem parseImplReduce_empty (h : Ts.popNStack G.max stack (some prod.2.length) = some []) :
    lim U (prog G) .parse (name! "ParseImplReduce") (.num p :: productionTy prod ::
      reduceArgs toks input stack i a ts (depth + 1)) = some (.str (name! "unreachable: `newStack` is always a number")) := by
  have hpop := popNStack_eq (U := U) (G := G) (stack.map .num) (some prod.2.length)
  rw [popNStack_map, h] at hpop
  change _ = some (Ty.tup []) at hpop
  rw [num?.eq_2] at hpop
  rw [lim_decl parse.ParseImplReduce rfl rfl]
  ts_eval [parse.ParseImplReduce, reduceArgs, access_prod_tokens, nums, access_length, parse_pop, hpop]

theorem parseImplReduce_noGoto (t : Nat) (stk : List Nat) (h : Ts.popNStack G.max stack (some prod.2.length) = some (t :: stk))
    (hg : G.parse.goto.tryIndex t prod.1 = none) :
    lim U (prog G) .parse (name! "ParseImplReduce") (.num p :: productionTy prod ::
      reduceArgs toks input stack i a ts (depth + 1)) = some (.str (name! "not good")) := by
  have hpop := popNStack_eq (U := U) (G := G) (stack.map .num) (some prod.2.length)
  rw [popNStack_map, h] at hpop
  change _ = some (Ty.tup (.num t :: stk.map .num)) at hpop
  rw [num?.eq_2] at hpop
  obtain ⟨gt, hgt, hgt'⟩ := getGoto_eq (U := U) (G := G) t prod.1
  rw [hg] at hgt'
  simp only [goto?] at hgt'
  obtain ⟨w, rfl⟩ := hgt'
  rw [lim_decl parse.ParseImplReduce rfl rfl]
  ts_eval [parse.ParseImplReduce, reduceArgs, access_prod_tokens, access_prod_name, nums, access_length, parse_pop, hpop, hgt]

include hP hd

theorem parseImplReduce_stack (t : Nat) (stk : List Nat) (h : Ts.popNStack G.max stack (some prod.2.length) = some (t :: stk))
    (j : Nat) (hg : G.parse.goto.tryIndex t prod.1 = some j) (ht : List.Forall₂ SymTy syms ts)
    (l : List (Ts.Symb Ty)) (he : Ts.emitProduction G.max (semOf U) G.parse p syms = .stack l)
    (hl : l.all (Ts.isSymbol (semOf U) G.parse)) :
    ∃ ls, List.Forall₂ SymTy l ls ∧
      lim U (prog G) .parse (name! "ParseImplReduce") (.num p :: productionTy prod ::
        reduceArgs toks input stack i a ts (depth + 1)) =
      lim U (prog G) .parse (name! "ParseImpl") (reduceArgs toks input (j :: t :: stk) i a ls depth) := by
  have hpred := pred_eq (U := U) (G := G) (some (depth + 1))
  rw [Ts.pred_ok hd] at hpred
  simp only [num?.eq_2, Nat.add_sub_cancel] at hpred
  have hpop := popNStack_eq (U := U) (G := G) (stack.map .num) (some prod.2.length)
  rw [popNStack_map, h] at hpop
  change _ = some (Ty.tup (.num t :: stk.map .num)) at hpop
  rw [num?.eq_2] at hpop
  obtain ⟨gt, hgt, hgt'⟩ := getGoto_eq (U := U) (G := G) t prod.1
  rw [hg] at hgt'
  simp only [goto?] at hgt'
  subst hgt'
  obtain ⟨et, het, het'⟩ := emitExp_eq (U := U) hP ht (by rw [he]; simp)
  rw [he] at het'
  obtain ⟨ls, rfl, hls⟩ := het'
  refine ⟨ls, hls, ?_⟩
  have hs := symbol_eq (U := U) hP
  rw [← accepts_symbols (G := G) hls] at hl
  have hn := accepts_nums (U := U) stk
  conv => lhs; rw [lim_decl parse.ParseImplReduce rfl rfl]
  simp [ev, evs, evMems, mget, naked, isPattern, mat, matTup, splice, test, early_tup, early_num, lift_num, parse.ParseImplReduce,
    reduceArgs, access_tup, access_prod_tokens, access_prod_name, nums, access_length, parse_pop, hpop, hgt, parse_emit, het,
    parse_symbol, hs, hl, hn, parse_pred, hpred, accepts_num]

omit hd in
theorem parseImplReduce_error (t : Nat) (stk : List Nat) (h : Ts.popNStack G.max stack (some prod.2.length) = some (t :: stk))
    (j : Nat) (hg : G.parse.goto.tryIndex t prod.1 = some j) (ht : List.Forall₂ SymTy syms ts) (top : Nat) (rest : List Nat)
    (hstack : stack = top :: rest)
    (ho : Ts.emitProduction G.max (semOf U) G.parse p syms ≠ .other)
    (he : ∀ l, Ts.emitProduction G.max (semOf U) G.parse p syms = .stack l → l.all (Ts.isSymbol (semOf U) G.parse) = false) :
    ∃ w te, EmitTy (Ts.emitProduction G.max (semOf U) G.parse p syms) te ∧
      lim U (prog G) .parse (name! "ParseImplReduce") (.num p :: productionTy prod ::
        reduceArgs toks input stack i a ts (depth + 1)) = some (.tup [.str w, te, .tup ts]) := by
  have hpop := popNStack_eq (U := U) (G := G) (stack.map .num) (some prod.2.length)
  rw [popNStack_map, h] at hpop
  change _ = some (Ty.tup (.num t :: stk.map .num)) at hpop
  rw [num?.eq_2] at hpop
  obtain ⟨gt, hgt, hgt'⟩ := getGoto_eq (U := U) (G := G) t prod.1
  rw [hg] at hgt'
  simp only [goto?] at hgt'
  subst hgt'
  obtain ⟨et, het, het'⟩ := emitExp_eq (U := U) hP ht ho
  have hs := symbol_eq (U := U) hP
  have hn := accepts_nums (U := U) stk
  have hne : early et false = none ∧ accepts U (.arr (symbolTy G)) et = false := by
    cases hr : Ts.emitProduction G.max (semOf U) G.parse p syms with
    | stack l =>
      have hl := he l hr
      rw [hr] at het'
      obtain ⟨ls, rfl, hls⟩ := het'
      rw [← accepts_symbols (G := G) hls] at hl
      exact ⟨rfl, hl⟩
    | error m =>
      rw [hr] at het'
      subst het'
      exact ⟨rfl, rfl⟩
    | other => exact absurd hr ho
  subst hstack
  refine ⟨name! "error state=" ++ LexGen.digits top ++ name! " a=" ++ numText a, et, het', ?_⟩
  conv => lhs; rw [lim_decl parse.ParseImplReduce rfl rfl]
  simp only [List.map_cons] at hpop
  cases a <;>
  simp [ev, evs, evMems, mget, naked, isPattern, mat, matTup, splice, test, early_tup, early_num, lift_num, parse.ParseImplReduce,
    reduceArgs, access_tup, access_prod_tokens, access_prod_name, nums, access_length, parse_pop, hpop, hgt, parse_emit, het,
    parse_symbol, hs, hne.1, hne.2, hn, accepts_num, concat, partText, numU, numText]

end Reduce

theorem parseImpl_eq (hP : ParseOk G) (toks : List Ts.Tok) (hv : ∀ t ∈ toks, t.value ≠ some .never) (input : List Nat) :
    ∀ (depth : Nat) (stack : List Nat) (i : Nat) (a : Option Nat) (syms : List (Ts.Symb Ty)) (ts : List Ty),
    depth ≤ G.max → List.Forall₂ SymTy syms ts →
    Known (Ts.parseImpl G.max (semOf U) G.parse toks input depth stack i a syms) →
    ∃ t, lim U (prog G) .parse (name! "ParseImpl") [.tup (toks.map tokTy), .tup (input.map .num), .tup (stack.map .num), .num i,
        numU a, .tup ts, .num depth] = some t ∧
      ParseTy (Ts.parseImpl G.max (semOf U) G.parse toks input depth stack i a syms) t := by
  intro depth
  induction depth with
  | zero =>
    intro stack i a syms ts _ _ _
    refine ⟨_, ?_, rfl⟩
    rw [lim_decl parse.ParseImpl rfl rfl]
    ts_eval [parse.ParseImpl]
  | succ depth ih =>
    intro stack i a syms ts hdep hsym hkn
    have hpred := pred_eq (U := U) (G := G) (some (depth + 1))
    rw [Ts.pred_ok hdep] at hpred
    simp only [num?, Nat.add_sub_cancel] at hpred
    cases stack with
    | nil =>
      refine ⟨_, ?_, Or.inl rfl⟩
      rw [lim_decl parse.ParseImpl rfl rfl]
      ts_eval [parse.ParseImpl]
    | cons top rest =>
      obtain ⟨act, hact, hact'⟩ := getAction_eq (U := U) (G := G) top a
      rw [Ts.parseImpl] at hkn ⊢
      cases hx : a.bind fun a => G.parse.action.tryIndex top a with
      | none =>
        simp only [hx] at hkn hact' ⊢
        obtain ⟨w, rfl⟩ := hact'
        refine ⟨_, ?_, ts, rfl, hsym⟩
        rw [lim_decl parse.ParseImpl rfl rfl]
        cases a <;> simp only [numU] at hact <;> ts_eval [parse.ParseImpl, hact, numU, numText]
      | some x =>
        simp only [hx] at hkn hact' ⊢
        simp only [action?] at hact'
        subst hact'
        cases x with
        | accept =>
          refine ⟨.tup ts, ?_, ts, rfl, hsym⟩
          rw [lim_decl parse.ParseImpl rfl rfl]
          ts_eval [parse.ParseImpl, hact, actionTy, objS, member]
        | shift j =>
          have hshift : lim U (prog G) .parse (name! "ParseImpl") [.tup (toks.map tokTy), .tup (input.map .num),
              .tup ((top :: rest).map .num), .num i, numU a, .tup ts, .num (depth + 1)] =
            lim U (prog G) .parse (name! "ParseImplShift") [.num j, .tup (toks.map tokTy), .tup (input.map .num),
              .tup ((top :: rest).map .num), .num i, numU a, .tup ts, .num (depth + 1)] := by
            conv => lhs; rw [lim_decl parse.ParseImpl rfl rfl]
            ts_eval [parse.ParseImpl, hact, actionTy, objS, member]
            rfl
          dsimp only at hkn ⊢
          rw [hshift]
          cases hn : Ts.nextToken G.max a i input with
          | none => simp [hn, Known] at hkn
          | some r =>
            obtain ⟨a', i'⟩ := r
            rw [parseImplShift_eq toks input _ j i a a' i' depth ts hdep hn]
            cases a' with
            | none => exact ⟨_, rfl, rfl⟩
            | some a' =>
              rw [hn] at hkn
              refine ih _ _ _ _ _ (by omega) (.cons (.token _ _ ?_) hsym) hkn
              intro t' ht'
              exact hv t' (List.mem_of_getElem? ht')
        | reduce p =>
          dsimp only at hkn ⊢
          have htab := prodTable_eq (U := U) (G := G)
          have hk := accepts_keysN (U := U) p (G.parse.productions.zipIdx.map fun e => (e.2, productionTy e.1))
          have hac := access_objN (G.parse.productions.zipIdx.map fun e => (e.2, productionTy e.1)) p
          rw [mget_prod] at hk hac
          cases hpr : G.parse.productions[p]? with
          | none =>
            refine ⟨_, ?_, rfl⟩
            rw [hpr] at hk
            rw [lim_decl parse.ParseImpl rfl rfl]
            ts_eval [parse.ParseImpl, hact, actionTy, objS, member, htab, hk]
          | some prod =>
            rw [hpr] at hk hac
            have hpt := accepts_production (U := U) prod (hP.tokens prod (List.mem_of_getElem? hpr))
            have hred : lim U (prog G) .parse (name! "ParseImpl") (reduceArgs toks input (top :: rest) i a ts (depth + 1)) =
              lim U (prog G) .parse (name! "ParseImplReduce") (.num p :: productionTy prod ::
                reduceArgs toks input (top :: rest) i a ts (depth + 1)) := by
              conv => lhs; rw [lim_decl parse.ParseImpl rfl rfl]
              ts_eval [reduceArgs, parse.ParseImpl, hact, actionTy, objS, member, htab, hk, hac, parse_production, production_eq,
                hpt, mget_prod, hpr]
              rfl
            simp only [hpr] at hkn
            change ∃ t, lim U (prog G) .parse (name! "ParseImpl") (reduceArgs toks input (top :: rest) i a ts (depth + 1)) = some t ∧ _
            rw [hred]
            obtain ⟨name, ptoks⟩ := prod
            dsimp only at hkn ⊢
            cases hpop : Ts.popNStack G.max (top :: rest) (some ptoks.length) with
            | none => simp [hpop, Known] at hkn
            | some st =>
              cases st with
              | nil =>
                exact ⟨_, parseImplReduce_empty toks input p i a depth (name, ptoks) _ hpop, Or.inr rfl⟩
              | cons t stk =>
                simp only [hpop] at hkn ⊢
                cases hg : G.parse.goto.tryIndex t name with
                | none =>
                  exact ⟨_, parseImplReduce_noGoto toks input p i a depth (name, ptoks) _ t stk hpop hg, rfl⟩
                | some j =>
                  simp only [hg] at hkn ⊢
                  cases he : Ts.emitProduction G.max (semOf U) G.parse p syms with
                  | stack l =>
                    simp only [he] at hkn ⊢
                    by_cases hl : l.all (Ts.isSymbol (semOf U) G.parse) = true
                    · obtain ⟨ls, hls, heq⟩ := parseImplReduce_stack (U := U) hP toks input p i a depth (name, ptoks) _ hdep t stk
                        hpop j hg hsym l he hl
                      rw [if_pos hl] at hkn ⊢
                      rw [heq]
                      exact ih _ _ _ _ _ (by omega) hls hkn
                    · rw [if_neg hl]
                      obtain ⟨w, te, hte, heq⟩ := parseImplReduce_error (U := U) hP toks input p i a depth (name, ptoks) _ t stk
                        hpop j hg hsym top rest rfl (by rw [he]; simp) (by
                          intro l' hl'
                          rw [he] at hl'
                          cases hl'
                          simpa using hl)
                      rw [he] at hte
                      exact ⟨_, heq, w, te, ts, rfl, hte, hsym⟩
                  | error m =>
                    obtain ⟨w, te, hte, heq⟩ := parseImplReduce_error (U := U) hP toks input p i a depth (name, ptoks) _ t stk
                      hpop j hg hsym top rest rfl (by rw [he]; simp) (by
                        intro l' hl'
                        rw [he] at hl'
                        cases hl')
                    rw [he] at hte
                    exact ⟨_, heq, w, te, ts, rfl, hte, hsym⟩
                  | other => simp [he, Known] at hkn

theorem parse_eq (hP : ParseOk G) (toks : List Ts.Tok) (hv : ∀ t ∈ toks, t.value ≠ some .never)
    (hkn : Known (Ts.parse G.max (semOf U) G.parse toks)) :
    ∃ t, lim U (prog G) .parse (name! "Parse") [.tup (toks.map tokTy)] = some t ∧
      ParseTy (Ts.parse G.max (semOf U) G.parse toks) t := by
  rw [Ts.parse] at hkn ⊢
  have hi := tokenIndices_eq (U := U) (G := G) toks
  cases h : Ts.tokenIndices G.parse toks with
  | error k =>
    rw [h] at hi
    refine ⟨_, ?_, rfl⟩
    rw [lim_decl parse.Parse rfl rfl]
    ts_eval [parse.Parse, hi, indices?]
  | ok input =>
    simp only [h] at hkn hi ⊢
    obtain ⟨t, ht, ht'⟩ := parseImpl_eq (U := U) hP toks hv input 50 [0] 0 input[0]? [] [] hP.depth .nil hkn
    refine ⟨t, ?_, ht'⟩
    rw [← ht, lim_decl parse.Parse rfl rfl]
    have hn := accepts_nums (U := U) input
    have hz : (Option.map Ty.num input[0]?).getD .undef = numU input[0]? := by cases input[0]? <;> rfl
    simp [ev, evs, mget, naked, isPattern, mat, test, parse.Parse, hi, indices?, early_tup, hn, access_tup, splice, hz]

/-- `Parse` of a message of the lexer. -/
theorem parse_str (s : Str) : lim U (prog G) .parse (name! "Parse") [.str s] =
    some (.tup [.str (name! "error: invalid token undefined"), .tup []]) := by
  have h1 : lim U (prog G) .parse (name! "TokenIndicesImpl") [.str s, .tup []] = some (.tup []) := by
    rw [lim_decl parse.TokenIndicesImpl rfl rfl]
    ts_eval [parse.TokenIndicesImpl]
  have h2 : lim U (prog G) .parse (name! "TokenIndices") [.str s] = some (.tup []) := by
    have hr := reverse_eq (U := U) (G := G) []
    rw [Ts.reverse_eq] at hr
    rw [lim_decl parse.TokenIndices rfl rfl]
    ts_eval [parse.TokenIndices, h1, parse_reverse, hr]
  obtain ⟨act, hact, hact'⟩ := getAction_eq (U := U) (G := G) 0 none
  obtain ⟨w, rfl⟩ := hact'
  have h3 : lim U (prog G) .parse (name! "ParseImpl") [.str s, .tup [], .tup [.num 0], .num 0, .undef, .tup [], .num 50] =
      some (.tup [.str (name! "error: invalid token undefined"), .tup []]) := by
    rw [lim_decl parse.ParseImpl rfl rfl]
    simp only [numU] at hact
    ts_eval [parse.ParseImpl, hact]
  rw [← h3, lim_decl parse.Parse rfl rfl]
  ts_eval [parse.Parse, h2]

end Verif.MiniTs
