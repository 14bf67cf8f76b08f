import Verif.Proofs.TsLexFile
import Verif.Proofs.ParseTextOk
import Verif.Spec.TsWritten

/-! # The module `type_defs` of the generated parser, read as TypeScript -/

namespace Verif.Spec.TsProject
open Verif MiniTs TsSyntax LexGen ParseGen

/-! ## Scanning -/

def symbolW (s : Str) : List Word :=
  [.punct '|', .punct '{', .id "kind".toList, .punct ':', .str s, .punct ',', .id "value".toList, .punct ':',
    .id ("actions.".toList ++ s), .punct '}']

theorem scan_symbol {s : Str} (h : WordName s) (out : List Word) :
    TsSyntax.scanFrom (at_ out .between) (symbolText s) = at_ (out ++ symbolW s) .between := by
  have h1 : ∀ out, TsSyntax.scanFrom (at_ out (qt '"' [])) s = at_ out (qt '"' s) := fun out => TsSyntax.scan_plain2 _ [] out h.plain
  unfold symbolText symbolW
  ts_lits
  simp only [h1]
  ts_lits
  simp only [TsSyntax.scan_name h]
  ts_lits

def symbolsW (ss : List Str) : List Word :=
  [.id "export".toList, .id "type".toList, .id "Symbol".toList, .punct '=', .punct '{', .id "kind".toList, .punct ':',
    .str "token".toList, .punct ',', .id "token".toList, .punct ':', .id "L.Token".toList, .punct '}'] ++ ss.flatMap symbolW

theorem scan_symbols {ss : List Str} (h : ∀ s ∈ ss, WordName s) (out : List Word) :
    TsSyntax.scanFrom (at_ out .between) (symbolsText ss) = at_ (out ++ symbolsW ss) .between := by
  unfold symbolsText symbolsW
  ts_lits
  rw [TsSyntax.scan_flatMap (g := symbolW) (fun s hs out => scan_symbol (h s hs) out)]
  ts_lits

def tokenW (p : Sym × Nat) : List Word :=
  match tokenKind p.1 with
  | some (k, v) => [.num p.2, .punct ':', .punct '{', .id "kind".toList, .punct ':', .str k, .punct ',',
      .id "value".toList, .punct ':', .str v, .punct '}']
  | none => [.num p.2, .punct ':', .punct '{', .id "kind".toList, .punct ':', .str "eof".toList, .punct '}']

theorem scan_token {p : Sym × Nat} (h : ∀ k v, tokenKind p.1 = some (k, v) → Plain2 v) (out : List Word) :
    TsSyntax.scanFrom (at_ out .between) (tokenText p) = at_ (out ++ tokenW p) .between := by
  unfold tokenText tokenW
  cases hk : tokenKind p.1 with
  | none => ts_lits
  | some kv =>
    obtain ⟨k, v⟩ := kv
    have h1 : ∀ out, TsSyntax.scanFrom (at_ out (qt '"' [])) k = at_ out (qt '"' k) :=
      fun out => TsSyntax.scan_plain2 _ [] out (tokenKind_plain hk)
    have h2 : ∀ out, TsSyntax.scanFrom (at_ out (qt '"' [])) v = at_ out (qt '"' v) :=
      fun out => TsSyntax.scan_plain2 _ [] out (h k v hk)
    simp only
    ts_lits
    simp only [h1]
    ts_lits
    simp only [h2]
    ts_lits

def tokenTypeW : List Word :=
  [.id "export".toList, .id "type".toList, .id "Token".toList, .punct '=',
    .punct '|', .punct '{', .id "kind".toList, .punct ':', .str "strlit".toList, .punct ';', .id "value".toList, .punct ':',
    .id "string".toList, .punct '}',
    .punct '|', .punct '{', .id "kind".toList, .punct ':', .str "nonterminal".toList, .punct ';', .id "value".toList, .punct ':',
    .id "string".toList, .punct '}',
    .punct '|', .punct '{', .id "kind".toList, .punct ':', .str "regex".toList, .punct ';', .id "value".toList, .punct ':',
    .id "string".toList, .punct '}',
    .punct '|', .punct '{', .id "kind".toList, .punct ':', .str "eof".toList, .punct '}', .punct ';']

theorem scan_tokenType (out : List Word) : TsSyntax.scanFrom (at_ out .between)
    ("\nexport type Token =\n  | { kind: \"strlit\"; value: string }\n  | { kind: \"nonterminal\"; value: string }\n" ++
      "  | { kind: \"regex\"; value: string }\n  | { kind: \"eof\" };\n  \n  ").toList = at_ (out ++ tokenTypeW) .between :=
  TsSyntax.scan_of (by decide +kernel) out

def tokensW (ts : List Sym) : List Word :=
  tokenTypeW ++ ([.id "export".toList, .id "type".toList, .id "Tokens".toList, .punct '=', .punct '{'] ++
    (ts.zipIdx.flatMap tokenW ++ [.punct '}']))

theorem scan_tokens {ts : List Sym} (h : ∀ s ∈ ts, ∀ k v, tokenKind s = some (k, v) → Plain2 v) (out : List Word) :
    TsSyntax.scanFrom (at_ out .between) (tokensText ts) = at_ (out ++ tokensW ts) .between := by
  unfold tokensText tokensW
  rw [TsSyntax.scanFrom_append, TsSyntax.scanFrom_append, TsSyntax.scanFrom_append, scan_tokenType]
  ts_lits
  rw [TsSyntax.scan_flatMap (g := tokenW) (fun p hp out => scan_token (h p.1 (List.fst_mem_of_mem_zipIdx hp)) out)]
  ts_lits

def productionW (p : (Str × List Nat) × Nat) : List Word :=
  [.num p.2, .punct ':', .punct '{', .id "name".toList, .punct ':', .str p.1.1, .punct ',', .id "tokens".toList, .punct ':',
    .punct '['] ++ (p.1.2.flatMap (fun k => [.num k, .punct ',']) ++ [.punct ']', .punct '}'])

theorem scan_production {p : (Str × List Nat) × Nat} (h : Plain2 p.1.1) (out : List Word) :
    TsSyntax.scanFrom (at_ out .between) (productionText p) = at_ (out ++ productionW p) .between := by
  have h1 : ∀ out, TsSyntax.scanFrom (at_ out (qt '"' [])) p.1.1 = at_ out (qt '"' p.1.1) :=
    fun out => TsSyntax.scan_plain2 _ [] out h
  unfold productionText productionW
  ts_lits
  simp only [h1]
  ts_lits
  rw [TsSyntax.scan_flatMap (g := fun k => [.num k, .punct ',']) (fun k hk out => by ts_lits)]
  ts_lits

def productionTypeW : List Word :=
  [.id "export".toList, .id "type".toList, .id "Production".toList, .punct '=', .punct '{',
    .id "name".toList, .punct ':', .id "string".toList, .punct ';',
    .id "tokens".toList, .punct ':', .id "Array".toList, .punct '<', .id "keyof".toList, .id "Tokens".toList, .punct '>',
    .punct ';', .punct '}', .punct ';']

theorem scan_productionType (out : List Word) : TsSyntax.scanFrom (at_ out .between)
    ("export type Production = {\n                name: string;\n                tokens: Array<keyof Tokens>;\n" ++
      "              };\n              \n              ").toList = at_ (out ++ productionTypeW) .between :=
  TsSyntax.scan_of (by decide +kernel) out

def productionsW (ps : List (Str × List Nat)) : List Word :=
  productionTypeW ++ ([.id "export".toList, .id "type".toList, .id "Productions".toList, .punct '=', .punct '{'] ++
    (ps.zipIdx.flatMap productionW ++ [.punct '}']))

theorem scan_productions {ps : List (Str × List Nat)} (h : ∀ p ∈ ps, Plain2 p.1) (out : List Word) :
    TsSyntax.scanFrom (at_ out .between) (productionsText ps) = at_ (out ++ productionsW ps) .between := by
  unfold productionsText productionsW
  rw [TsSyntax.scanFrom_append, TsSyntax.scanFrom_append, TsSyntax.scanFrom_append, scan_productionType]
  ts_lits
  rw [TsSyntax.scan_flatMap (g := productionW) (fun p hp out => scan_production (h p.1 (List.fst_mem_of_mem_zipIdx hp)) out)]
  ts_lits

def actionW : Action → List Word
  | .shift j => [.id "shift".toList, .punct ':', .num j]
  | .reduce r => [.id "reduce".toList, .punct ':', .num r]
  | .accept => [.id "accept".toList, .punct ':', .id "true".toList]

def actionEntryW (e : Nat × Action) : List Word :=
  [.num e.1, .punct ':', .punct '{'] ++ (actionW e.2 ++ [.punct '}'])

theorem scan_action (a : Action) (out : List Word) :
    TsSyntax.scanFrom (TsSyntax.scanFrom (at_ out .between) (actionText a)) "\n}\n".toList =
      at_ (out ++ (actionW a ++ [.punct '}'])) .between := by
  cases a with
  | shift j =>
    have e1 : actionText (.shift j) = "shift: ".toList ++ digits j := rfl
    have e2 : actionW (.shift j) = [.id "shift".toList, .punct ':', .num j] := rfl
    rw [e1, e2]
    ts_lits
  | reduce j =>
    have e1 : actionText (.reduce j) = "reduce: ".toList ++ digits j := rfl
    have e2 : actionW (.reduce j) = [.id "reduce".toList, .punct ':', .num j] := rfl
    rw [e1, e2]
    ts_lits
  | accept =>
    have e1 : actionText .accept = "accept: true".toList := rfl
    have e2 : actionW .accept = [.id "accept".toList, .punct ':', .id "true".toList] := rfl
    rw [e1, e2]
    ts_lits

theorem scan_actionEntry (e : Nat × Action) (out : List Word) :
    TsSyntax.scanFrom (at_ out .between) (actionEntryText e) = at_ (out ++ actionEntryW e) .between := by
  unfold actionEntryText actionEntryW
  ts_lits
  rw [scan_action]
  ts_lits

def actionRowW (r : Nat × List (Nat × Action)) : List Word :=
  [.num r.1, .punct ':', .punct '{'] ++ (r.2.flatMap actionEntryW ++ [.punct '}'])

theorem scan_actionRow (r : Nat × List (Nat × Action)) (out : List Word) :
    TsSyntax.scanFrom (at_ out .between) (actionRowText r) = at_ (out ++ actionRowW r) .between := by
  unfold actionRowText actionRowW
  ts_lits
  rw [TsSyntax.scan_flatMap (g := actionEntryW) (fun e _ out => scan_actionEntry e out)]
  ts_lits

def actionTableW (t : Table Nat Action) : List Word :=
  [.id "export".toList, .id "type".toList, .id "Action".toList, .punct '=', .punct '{'] ++
    (t.flatMap actionRowW ++ [.punct '}'])

theorem scan_actionTable (t : Table Nat Action) (out : List Word) :
    TsSyntax.scanFrom (at_ out .between) (actionTableText t) = at_ (out ++ actionTableW t) .between := by
  unfold actionTableText actionTableW
  ts_lits
  rw [TsSyntax.scan_flatMap (g := actionRowW) (fun e _ out => scan_actionRow e out)]
  ts_lits

def gotoEntryW (e : Str × Nat) : List Word := [.id e.1, .punct ':', .num e.2]

theorem scan_gotoEntry {e : Str × Nat} (h : WordName e.1) (out : List Word) :
    TsSyntax.scanFrom (at_ out .between) (gotoEntryText e) = at_ (out ++ gotoEntryW e) .between := by
  unfold gotoEntryText gotoEntryW
  ts_lits
  simp only [TsSyntax.scan_ident h]
  ts_lits

def gotoRowW (r : Nat × List (Str × Nat)) : List Word :=
  [.num r.1, .punct ':', .punct '{'] ++ (r.2.flatMap gotoEntryW ++ [.punct '}'])

theorem scan_gotoRow {r : Nat × List (Str × Nat)} (h : ∀ e ∈ r.2, WordName e.1) (out : List Word) :
    TsSyntax.scanFrom (at_ out .between) (gotoRowText r) = at_ (out ++ gotoRowW r) .between := by
  unfold gotoRowText gotoRowW
  ts_lits
  rw [TsSyntax.scan_flatMap (g := gotoEntryW) (fun e he out => scan_gotoEntry (h e he) out)]
  ts_lits

def gotoTableW (t : Table Str Nat) : List Word :=
  [.id "export".toList, .id "type".toList, .id "Goto".toList, .punct '=', .punct '{'] ++
    (t.flatMap gotoRowW ++ [.punct '}'])

theorem scan_gotoTable {t : Table Str Nat} (h : ∀ r ∈ t, ∀ e ∈ r.2, WordName e.1) (out : List Word) :
    TsSyntax.scanFrom (at_ out .between) (gotoTableText t) = at_ (out ++ gotoTableW t) .between := by
  unfold gotoTableText gotoTableW
  ts_lits
  rw [TsSyntax.scan_flatMap (g := gotoRowW) (fun e he out => scan_gotoRow (h e he) out)]
  ts_lits

def kindW (e : Str × Nat) : List Word := [.str e.1, .punct ':', .num e.2]

theorem scan_kind {e : Str × Nat} (h : PlainName e.1) (out : List Word) :
    TsSyntax.scanFrom (at_ out .between) (kindText e) = at_ (out ++ kindW e) .between := by
  have h2 : ∀ out, TsSyntax.scanFrom (at_ out (qt '\'' [])) e.1 = at_ out (qt '\'' e.1) :=
    fun out => TsSyntax.scan_plain1 e.1 [] out h
  unfold kindText kindW
  ts_lits
  simp only [h2]
  ts_lits

def kindsW (ks : List (Str × Nat)) : List Word :=
  [.id "export".toList, .id "type".toList, .id "TokenKindToIdx".toList, .punct '=', .punct '{'] ++
    (ks.flatMap kindW ++ [.punct '}'])

theorem scan_kinds {ks : List (Str × Nat)} (h : ∀ e ∈ ks, PlainName e.1) (out : List Word) :
    TsSyntax.scanFrom (at_ out .between) (kindsText ks) = at_ (out ++ kindsW ks) .between := by
  unfold kindsText kindsW
  ts_lits
  rw [TsSyntax.scan_flatMap (g := kindW) (fun e he out => scan_kind (h e he) out)]
  ts_lits

def typeDefsW (t : ParseGen.Tables) (ts : List Sym) : List Word :=
  [.id "export".toList, .id "declare".toList, .id "module".toList, .id "type_defs".toList, .punct '{'] ++
    (symbolsW t.symbols ++ (tokensW ts ++ (productionsW t.productions ++ (actionTableW t.action ++
    (gotoTableW t.goto ++ (kindsW t.kindToIdx ++ [.punct '}']))))))

theorem scan_typeDefs {t : ParseGen.Tables} {ts : List Sym} (h : WritableNames t ts) (out : List Word) :
    TsSyntax.scanFrom (at_ out .between) (t.typeDefsText ts) = at_ (out ++ typeDefsW t ts) .between := by
  unfold ParseGen.Tables.typeDefsText typeDefsW
  ts_lits
  rw [scan_symbols h.symbols, scan_tokens h.tokens, scan_productions h.prods, scan_actionTable, scan_gotoTable h.goto, scan_kinds h.kinds]
  ts_lits


/-! ## Reading -/

theorem keyword_free {x : Str} (h : x ∉ reserved) : keyword x = none := by
  simp only [reserved, List.map_cons, List.map_nil, List.mem_cons, List.not_mem_nil, or_false, not_or] at h
  obtain ⟨h1, h2, h3, h4, h5, h6, h7, h8, -⟩ := h
  simp only [keyword, if_neg h1, if_neg h2, if_neg h3, if_neg h4, if_neg h5, if_neg h6, if_neg h7, if_neg h8]

theorem noPrefix_free {x : Str} {r : List Word} (h : x ∉ reserved) : noPrefix (.id x :: r) = true := by
  simp only [reserved, List.map_cons, List.map_nil, List.mem_cons, List.not_mem_nil, or_false, not_or] at h
  obtain ⟨-, -, -, -, -, -, -, -, h1, h2, -⟩ := h
  simp only [noPrefix, decide_eq_true h1, decide_eq_true h2, Bool.and_self]

theorem ends_id {x : Str} {r : List Word} (h : x ≠ "extends".toList) : ends (.id x :: r) = true := by
  have e : ends (.id x :: r) = decide (x ≠ "extends".toList) := rfl
  rw [e]; exact decide_eq_true h

theorem free_extends {x : Str} (h : x ∉ reserved) : x ≠ "extends".toList := by
  rintro rfl
  exact h (by decide)

/-- A name is not reserved if it begins like none of the reserved ones. -/
theorem dotted_free {p s : Str} (h : ∀ k ∈ reserved, p.isPrefixOf k = false) : p ++ s ∉ reserved := by
  intro hm
  have h1 := h _ hm
  have h2 : p.isPrefixOf (p ++ s) = true := List.isPrefixOf_iff_prefix.mpr (List.prefix_append p s)
  rw [h1] at h2
  cases h2

theorem rd_refU {x : Str} {r : List Word} (hx : x ∉ reserved) (hr : noPunct '<' r = true) (hr1 : noPunct '[' r = true)
    (hr2 : noPunct '|' r = true) : Rd unionType (.id x :: r) (.ref x .nil) r :=
  rd_union1 (rd_prefix (rd_ref (keyword_free hx) hr) (noPrefix_free hx) (rd_idx_nil hr1)) rfl hr2

theorem rd_refT {x : Str} {r : List Word} (hx : x ∉ reserved) (hr : noPunct '<' r = true) (hr' : ends r = true) :
    Rd TsSyntax.type (.id x :: r) (.ref x .nil) r :=
  rd_prim (rd_ref (keyword_free hx) hr) (noPrefix_free hx) rfl hr'

/-- An object type as a member of a union. -/
theorem rd_objP {ws r : List Word} {es : Exps} (h : Rd members ws es r) (hr : noPunct '[' r = true) :
    Rd prefixType (.punct '{' :: ws) (.obj es) r := rd_prefix (rd_obj h) rfl (rd_idx_nil hr)

theorem rd_stringT {r : List Word} (hr : noPunct '<' r = true) (hr' : ends r = true) :
    Rd TsSyntax.type (.id "string".toList :: r) (.lit .string) r := by
  have h := rd_word (x := "string".toList) hr
  have e : (keyword "string".toList).getD (.ref "string".toList .nil) = .lit .string := by
    have : keyword "string".toList = some (.lit .string) := by unfold keyword; rfl
    rw [this]; rfl
  rw [e] at h
  exact rd_prim h rfl rfl hr'

theorem noBar_symbols (ss : List Str) {r : List Word} (hr : noPunct '[' r = true) : noPunct '[' (ss.flatMap symbolW ++ r) = true := by
  cases ss with
  | nil => exact hr
  | cons s ss => rfl

theorem rd_symbols {r : List Word} (hr : noPunct '[' r = true) (hr' : noPunct '|' r = true) :
    ∀ ss : List Str, Rd unionRest (ss.flatMap symbolW ++ r) (symbolAlts ss) r
  | [] => rd_rest_nil hr'
  | s :: ss => by
    have ih := rd_symbols hr hr' ss
    rw [List.flatMap_cons, List.append_assoc]
    simp only [symbolW, List.cons_append, List.nil_append]
    refine rd_rest_cons (rd_objP (rd_mem_id (rd_prim rd_str rfl rfl rfl) (rd_mems_comma (rd_mem_id (rd_refT (dotted_free (by decide)) rfl rfl)
      rd_mems_nil))) (noBar_symbols ss hr)) ih

theorem al_symbols {ss : List Str} (hs : ss ≠ []) {r rest : List Word} {ds : List Decl} (hr : ends r = true) (h : Rd aliases r ds rest) :
    Rd aliases (symbolsW ss ++ r) (aliasOf "Symbol".toList (symbolExp ss) :: ds) rest := by
  simp only [ends, Bool.and_eq_true] at hr
  unfold symbolsW symbolExp
  simp only [List.cons_append, List.nil_append]
  obtain ⟨s, ss, rfl⟩ := List.exists_cons_of_ne_nil hs
  have h1 := rd_symbols hr.1.1 hr.1.2 (s :: ss)
  exact al_export (al_plain (rd_type (rd_union (rd_objP (rd_mem_id (rd_prim rd_str rfl rfl rfl) (rd_mems_comma (rd_mem_id
    (rd_refT (by decide) rfl rfl) rd_mems_nil))) rfl) rfl h1) hr.2) h)

theorem al_tokenType {r rest : List Word} {ds : List Decl} (h : Rd aliases r ds rest) :
    Rd aliases (tokenTypeW ++ r) (aliasOf "Token".toList tokenAlts :: ds) rest := by
  unfold tokenTypeW tokenAlts
  simp only [List.cons_append, List.nil_append]
  have ms : ∀ {k : Str} {r : List Word}, Rd members (.id "kind".toList :: .punct ':' :: .str k :: .punct ';' :: .id "value".toList ::
      .punct ':' :: .id "string".toList :: .punct '}' :: r)
      (.cons (.member (.str "kind".toList) false) (.lit (.str k)) (.cons (.member (.str "value".toList) false) (.lit .string) .nil)) r :=
    rd_mem_id (rd_prim rd_str rfl rfl rfl) (rd_mems_semi (rd_mem_id (rd_stringT rfl rfl) rd_mems_nil))
  exact al_export (al_plain (rd_type (rd_bar (rd_union (rd_objP ms rfl) rfl (rd_rest_cons (rd_objP ms rfl) (rd_rest_cons (rd_objP ms rfl)
    (rd_rest_cons (rd_objP (rd_mem_id (rd_prim rd_str rfl rfl rfl) rd_mems_nil) rfl) (rd_rest_nil rfl))))) rfl) rfl) (al_semi h))

theorem rd_token (s : Sym) {n : Nat} {es : Exps} {r rest : List Word} (hr : ends r = true) (h : Rd members r es rest) :
    Rd members (tokenW (s, n) ++ r) (.cons (.member (.num n) false) (tyExp (MiniTs.tokenTy s)) es) rest := by
  have two : ∀ k v : Str, Rd members
      (([.num n, .punct ':', .punct '{', .id "kind".toList, .punct ':', .str k, .punct ',',
        .id "value".toList, .punct ':', .str v, .punct '}'] : List Word) ++ r)
      (.cons (.member (.num n) false) (tyExp (objS [("kind".toList, .str k), ("value".toList, .str v)])) es) rest := by
    intro k v
    simp only [objS, tyExp, memExps, List.map_cons, List.map_nil, List.cons_append, List.nil_append]
    exact rd_mem_num (rd_prim (rd_obj (rd_mem_id (rd_prim rd_str rfl rfl rfl) (rd_mems_comma (rd_mem_id (rd_prim rd_str rfl rfl rfl)
      rd_mems_nil)))) rfl rfl hr) h
  have one : Rd members (([.num n, .punct ':', .punct '{', .id "kind".toList, .punct ':', .str "eof".toList, .punct '}'] : List Word) ++ r)
      (.cons (.member (.num n) false) (tyExp (objS [("kind".toList, .str "eof".toList)])) es) rest := by
    simp only [objS, tyExp, memExps, List.map_cons, List.map_nil, List.cons_append, List.nil_append]
    exact rd_mem_num (rd_prim (rd_obj (rd_mem_id (rd_prim rd_str rfl rfl rfl) rd_mems_nil)) rfl rfl hr) h
  cases s with
  | strLit s => exact two _ s
  | nonTerm s => exact two _ s
  | regex s => exact two _ s
  | epsilon => exact one
  | eof => exact one

theorem al_tokens (ts : List Sym) {r rest : List Word} {ds : List Decl} (hr : ends r = true) (h : Rd aliases r ds rest) :
    Rd aliases (tokensW ts ++ r) (aliasOf "Token".toList tokenAlts ::
      aliasOf "Tokens".toList (tyExp (objN (ts.zipIdx.map fun e => (e.2, MiniTs.tokenTy e.1)))) :: ds) rest := by
  unfold tokensW
  rw [List.append_assoc]
  refine al_tokenType ?_
  rw [tyExp_objN]
  simp only [List.cons_append, List.nil_append, List.append_assoc]
  refine al_export (al_plain (rd_prim (rd_obj (rd_members (w := tokenW) fun e _ r es rest hr h => ⟨?_, ?_⟩).2) rfl rfl hr) h)
  · obtain ⟨s, n⟩ := e
    cases s <;> rfl
  · exact rd_token e.1 hr h

theorem rd_commaNums {r : List Word} : ∀ l : List Nat,
    Rd elems (l.flatMap (fun k => [.num k, .punct ',']) ++ .punct ']' :: r) (tupExps (l.map fun n => .lit (.num n))) r
  | [] => rd_elems_nil
  | n :: l => by
    have ih := rd_commaNums (r := r) l
    rw [List.flatMap_cons, List.append_assoc]
    simp only [List.cons_append, List.nil_append]
    exact rd_elems (rd_prim rd_num rfl rfl rfl) rfl (rd_elems_comma ih)

theorem al_productions (ps : List (Str × List Nat)) {r rest : List Word} {ds : List Decl} (hr : ends r = true) (h : Rd aliases r ds rest) :
    Rd aliases (productionsW ps ++ r) (aliasOf "Production".toList productionExp ::
      aliasOf "Productions".toList (tyExp (objN (ps.zipIdx.map fun e => (e.2, MiniTs.productionTy e.1)))) :: ds) rest := by
  unfold productionsW productionTypeW productionExp
  have h2 : Rd aliases (.id "export".toList :: .id "type".toList :: .id "Productions".toList :: .punct '=' :: .punct '{' ::
      (ps.zipIdx.flatMap productionW ++ .punct '}' :: r))
      (aliasOf "Productions".toList (tyExp (objN (ps.zipIdx.map fun e => (e.2, MiniTs.productionTy e.1)))) :: ds) rest := by
    rw [tyExp_objN]
    refine al_export (al_plain (rd_prim (rd_obj (rd_members (w := productionW) fun e _ r es rest hr h => ⟨rfl, ?_⟩).2) rfl rfl hr) h)
    have : tyExp (MiniTs.productionTy e.1) = .obj (.cons (.member (.str "name".toList) false) (.lit (.str e.1.1))
        (.cons (.member (.str "tokens".toList) false) (tyExp (nums e.1.2)) .nil)) := by
      simp only [MiniTs.productionTy, objS, tyExp, memExps, List.map_cons, List.map_nil]
      rfl
    rw [this, tyExp_nums]
    simp only [productionW, List.cons_append, List.nil_append, List.append_assoc]
    exact rd_mem_num (rd_prim (rd_obj (rd_mem_id (rd_prim rd_str rfl rfl rfl) (rd_mems_comma (rd_mem_id
      (rd_prim (rd_tup (rd_commaNums _)) rfl rfl rfl) rd_mems_nil)))) rfl rfl hr) h
  simp only [List.cons_append, List.nil_append, List.append_assoc]
  have e : apply "Array".toList (.cons .elem (.keyof (.ref "Tokens".toList .nil)) .nil) = .arr (.keyof (.ref "Tokens".toList .nil)) := by
    unfold apply; rfl
  have ha : ∀ {r}, Rd primary (.id "Array".toList :: .punct '<' :: .id "keyof".toList :: .id "Tokens".toList :: .punct '>' :: r)
      (.arr (.keyof (.ref "Tokens".toList .nil))) r := by
    intro r
    rw [← e]
    exact rd_app (rd_args (rd_type (rd_union1 (rd_keyof (rd_prefix (rd_ref (by decide) rfl) rfl (rd_idx_nil rfl))) rfl rfl) rfl) rfl rfl rd_args_nil)
  exact al_export (al_plain (rd_prim (rd_obj (rd_mem_id (rd_stringT rfl rfl) (rd_mems_semi (rd_mem_id (rd_prim ha rfl rfl rfl)
    (rd_mems_semi rd_mems_nil))))) rfl rfl rfl) (al_semi h2))

theorem rd_trueT {r : List Word} (hr : noPunct '<' r = true) (hr' : ends r = true) :
    Rd TsSyntax.type (.id "true".toList :: r) (.lit (.bool true)) r := rd_bool true hr' hr

theorem rd_action (a : Action) {r : List Word} : Rd members (actionW a ++ .punct '}' :: r)
    (memExps (match MiniTs.actionTy a with | .obj ms => ms | _ => [])) r ∧ tyExp (MiniTs.actionTy a) =
      .obj (memExps (match MiniTs.actionTy a with | .obj ms => ms | _ => [])) := by
  cases a <;> refine ⟨?_, rfl⟩
  · exact rd_mem_id (rd_prim rd_num rfl rfl rfl) rd_mems_nil
  · exact rd_mem_id (rd_prim rd_num rfl rfl rfl) rd_mems_nil
  · exact rd_mem_id (rd_trueT rfl rfl) rd_mems_nil

theorem al_actionTable (t : Table Nat Action) {r rest : List Word} {ds : List Decl} (hr : ends r = true) (h : Rd aliases r ds rest) :
    Rd aliases (actionTableW t ++ r)
      (aliasOf "Action".toList (tyExp (objN (t.map fun r => (r.1, objN (r.2.map fun e => (e.1, MiniTs.actionTy e.2)))))) :: ds) rest := by
  unfold actionTableW
  simp only [List.cons_append, List.nil_append, List.append_assoc]
  rw [tyExp_objN]
  refine al_export (al_plain (rd_prim (rd_obj (rd_members (w := actionRowW) fun e _ r es rest hr h => ⟨rfl, ?_⟩).2) rfl rfl hr) h)
  simp only [actionRowW, List.cons_append, List.nil_append, List.append_assoc]
  rw [tyExp_objN]
  refine rd_mem_num (rd_prim (rd_obj (rd_members (w := actionEntryW) fun e _ r es rest hr h => ⟨rfl, ?_⟩).2) rfl rfl hr) h
  obtain ⟨h1, h2⟩ := rd_action e.2 (r := r)
  rw [h2]
  simp only [actionEntryW, List.cons_append, List.nil_append, List.append_assoc]
  exact rd_mem_num (rd_prim (rd_obj h1) rfl rfl hr) h

theorem al_gotoTable {t : Table Str Nat} (hn : ∀ r ∈ t, ∀ e ∈ r.2, e.1 ≠ "extends".toList) {r rest : List Word} {ds : List Decl}
    (hr : ends r = true) (h : Rd aliases r ds rest) :
    Rd aliases (gotoTableW t ++ r)
      (aliasOf "Goto".toList (tyExp (objN (t.map fun r => (r.1, objS (r.2.map fun e => (e.1, .num e.2)))))) :: ds) rest := by
  unfold gotoTableW
  simp only [List.cons_append, List.nil_append, List.append_assoc]
  rw [tyExp_objN]
  refine al_export (al_plain (rd_prim (rd_obj (rd_members (w := gotoRowW) fun row hrow r es rest hr h => ⟨rfl, ?_⟩).2) rfl rfl hr) h)
  simp only [gotoRowW, List.cons_append, List.nil_append, List.append_assoc]
  rw [tyExp_objS]
  refine rd_mem_num (rd_prim (rd_obj (rd_members (w := gotoEntryW) fun e he r es rest hr h =>
    ⟨ends_id (hn row hrow e he), ?_⟩).2) rfl rfl hr) h
  simp only [gotoEntryW, List.cons_append, List.nil_append]
  exact rd_mem_id (rd_prim rd_num rfl rfl hr) h

theorem al_kinds (ks : List (Str × Nat)) {r rest : List Word} {ds : List Decl} (hr : ends r = true) (h : Rd aliases r ds rest) :
    Rd aliases (kindsW ks ++ r)
      (aliasOf "TokenKindToIdx".toList (tyExp (objS (ks.map fun e => (e.1, .num e.2)))) :: ds) rest := by
  unfold kindsW
  simp only [List.cons_append, List.nil_append, List.append_assoc]
  rw [tyExp_objS]
  refine al_export (al_plain (rd_prim (rd_obj (rd_members (w := kindW) fun e _ r es rest hr h => ⟨rfl, ?_⟩).2) rfl rfl hr) h)
  simp only [kindW, List.cons_append, List.nil_append]
  exact rd_mem_str (rd_prim rd_num rfl rfl hr) h

/-- The declarations of the module `type_defs`. -/
def defsDecls (t : ParseGen.Tables) (ts : List Sym) : List Decl :=
  [aliasOf "Symbol".toList (symbolExp t.symbols),
    aliasOf "Token".toList tokenAlts,
    aliasOf "Tokens".toList (tyExp (objN (ts.zipIdx.map fun e => (e.2, MiniTs.tokenTy e.1)))),
    aliasOf "Production".toList productionExp,
    aliasOf "Productions".toList (tyExp (objN (t.productions.zipIdx.map fun e => (e.2, MiniTs.productionTy e.1)))),
    aliasOf "Action".toList (tyExp (objN (t.action.map fun r => (r.1, objN (r.2.map fun e => (e.1, MiniTs.actionTy e.2)))))),
    aliasOf "Goto".toList (tyExp (objN (t.goto.map fun r => (r.1, objS (r.2.map fun e => (e.1, .num e.2)))))),
    aliasOf "TokenKindToIdx".toList (tyExp (objS (t.kindToIdx.map fun e => (e.1, .num e.2))))]

/-- The module `type_defs` and what follows. -/
theorem it_defs {t : ParseGen.Tables} {ts : List Sym} (hs : t.symbols ≠ []) (hn : ∀ r ∈ t.goto, ∀ e ∈ r.2, e.1 ≠ "extends".toList)
    {ws : List Word} {F : File} (h : It ws F) :
    It (typeDefsW t ts ++ ws) { F with modules := ("type_defs".toList, defsDecls t ts) :: F.modules } := by
  unfold typeDefsW defsDecls
  simp only [List.cons_append, List.nil_append, List.append_assoc]
  refine it_module (al_symbols hs rfl (al_tokens ts rfl (al_productions _ rfl (al_actionTable _ rfl (al_gotoTable hn rfl (al_kinds _ rfl al_close)))))) h

end Verif.Spec.TsProject
