import Verif.Proofs.LexTextOk

/-! # The text of the module `type_defs` -/

namespace Verif.Spec
open Verif LexGen ParseGen

theorem scan_ident {s : Str} (h : WordName s) (out : List TsTok) : scanFrom ⟨.between, out⟩ s = ⟨.word s, out⟩ := by
  obtain ⟨c, s', rfl, h1, h2⟩ := h
  have e : scanFrom ⟨.between, out⟩ (c :: s') = scanFrom (scanBetween out c) s' := rfl
  have e2 : scanBetween out c = ⟨.word [c], out⟩ := by
    have n1 : c ≠ ' ' := by rintro rfl; revert h1; decide
    have n2 : c ≠ '\t' := by rintro rfl; revert h1; decide
    have n3 : isBreak c = false := by
      simp only [isBreak, Bool.or_eq_false_iff, beq_eq_false_iff_ne, ne_eq]
      refine ⟨⟨⟨?_, ?_⟩, ?_⟩, ?_⟩ <;> rintro rfl <;> revert h1 <;> decide
    have n4 : isDigit c = false := by
      simp only [isWordStart, isDigit, Bool.or_eq_true, decide_eq_true_eq, beq_iff_eq, decide_eq_false_iff_not] at h1 ⊢
      rcases h1 with ((h1 | h1) | rfl) | rfl
      · have : 'a'.toNat = 97 := rfl
        have : '9'.toNat = 57 := rfl
        omega
      · have : 'A'.toNat = 65 := rfl
        have : '9'.toNat = 57 := rfl
        omega
      · decide
      · decide
    simp [scanBetween, n1, n2, n3, n4, h1]
  rw [e, e2, scan_word _ _ _ h2]
  rfl

theorem WordName.plain {s : Str} (h : WordName s) : Plain2 s := by
  obtain ⟨c, s', rfl, h1, h2⟩ := h
  intro x hx
  have hw : isWordChar x = true := by
    rcases List.mem_cons.mp hx with rfl | hx
    · simp [isWordChar, h1]
    · exact h2 x hx
  refine ⟨?_, ?_, ?_⟩
  · rintro rfl; revert hw; decide
  · rintro rfl; revert hw; decide
  · simp only [isBreak, Bool.or_eq_false_iff, beq_eq_false_iff_ne, ne_eq]
    refine ⟨⟨⟨?_, ?_⟩, ?_⟩, ?_⟩ <;> rintro rfl <;> revert hw <;> decide

def symbolToks (s : Str) : List TsTok :=
  [.punct '|', .punct '{', .word "kind".toList, .punct ':', .str s, .punct ',', .word "value".toList, .punct ':',
    .word "actions".toList, .punct '.', .word s, .punct '}']

theorem scan_symbol {s : Str} (h : WordName s) (out : List TsTok) :
    scanFrom ⟨.between, out⟩ (symbolText s) = ⟨.between, out ++ symbolToks s⟩ := by
  have h1 : ∀ out, scanFrom ⟨.quoted '"' [], out⟩ s = ⟨.quoted '"' s, out⟩ := fun out => scan_plain2 _ [] out h.plain
  unfold symbolText symbolToks
  scan_lits
  simp only [h1]
  scan_lits
  simp only [scan_ident h]
  scan_lits

def symbolsToks (ss : List Str) : List TsTok :=
  [.word "export".toList, .word "type".toList, .word "Symbol".toList, .punct '=', .punct '{', .word "kind".toList, .punct ':',
    .str "token".toList, .punct ',', .word "token".toList, .punct ':', .word "L".toList, .punct '.', .word "Token".toList, .punct '}'] ++
  (ss.flatMap symbolToks ++ [.newline, .newline])

theorem scan_symbols {ss : List Str} (h : ∀ s ∈ ss, WordName s) (out : List TsTok) :
    scanFrom ⟨.between, out⟩ (symbolsText ss) = ⟨.between, out ++ symbolsToks ss⟩ := by
  unfold symbolsText symbolsToks
  scan_lits
  rw [scan_flatMap (g := symbolToks) (fun s hs out => scan_symbol (h s hs) out)]
  scan_lits

def tokenToks (p : Sym × Nat) : List TsTok :=
  match tokenKind p.1 with
  | some (k, v) => [.newline, .num p.2, .punct ':', .punct '{', .word "kind".toList, .punct ':', .str k, .punct ',',
      .word "value".toList, .punct ':', .str v, .punct '}']
  | none => [.newline, .num p.2, .punct ':', .punct '{', .word "kind".toList, .punct ':', .str "eof".toList, .punct '}']

theorem tokenKind_plain {s : Sym} {k v : Str} (h : tokenKind s = some (k, v)) : Plain2 k := by
  cases s <;> simp only [tokenKind, Option.some.injEq, Prod.mk.injEq, reduceCtorEq] at h <;> obtain ⟨rfl, -⟩ := h <;>
    unfold Plain2 <;> decide

theorem scan_token {p : Sym × Nat} (h : ∀ k v, tokenKind p.1 = some (k, v) → Plain2 v) (out : List TsTok) :
    scanFrom ⟨.between, out⟩ (tokenText p) = ⟨.between, out ++ tokenToks p⟩ := by
  unfold tokenText tokenToks
  cases hk : tokenKind p.1 with
  | none => scan_lits
  | some kv =>
    obtain ⟨k, v⟩ := kv
    have h1 : ∀ out, scanFrom ⟨.quoted '"' [], out⟩ k = ⟨.quoted '"' k, out⟩ := fun out => scan_plain2 _ [] out (tokenKind_plain hk)
    have h2 : ∀ out, scanFrom ⟨.quoted '"' [], out⟩ v = ⟨.quoted '"' v, out⟩ := fun out => scan_plain2 _ [] out (h k v hk)
    simp only
    scan_lits
    simp only [h1]
    scan_lits
    simp only [h2]
    scan_lits

def tokenTypeToks : List TsTok :=
  [.newline, .word "export".toList, .word "type".toList, .word "Token".toList, .punct '=', .newline,
    .punct '|', .punct '{', .word "kind".toList, .punct ':', .str "strlit".toList, .punct ';', .word "value".toList, .punct ':',
    .word "string".toList, .punct '}', .newline,
    .punct '|', .punct '{', .word "kind".toList, .punct ':', .str "nonterminal".toList, .punct ';', .word "value".toList, .punct ':',
    .word "string".toList, .punct '}', .newline,
    .punct '|', .punct '{', .word "kind".toList, .punct ':', .str "regex".toList, .punct ';', .word "value".toList, .punct ':',
    .word "string".toList, .punct '}', .newline,
    .punct '|', .punct '{', .word "kind".toList, .punct ':', .str "eof".toList, .punct '}', .punct ';', .newline, .newline]

def tokensToks (ts : List Sym) : List TsTok :=
  tokenTypeToks ++ ([.word "export".toList, .word "type".toList, .word "Tokens".toList, .punct '=', .punct '{'] ++
    (ts.zipIdx.flatMap tokenToks ++ [.newline, .punct '}', .newline, .newline]))

theorem scan_tokenType (out : List TsTok) : scanFrom ⟨.between, out⟩
    ("\nexport type Token =\n  | { kind: \"strlit\"; value: string }\n  | { kind: \"nonterminal\"; value: string }\n" ++
      "  | { kind: \"regex\"; value: string }\n  | { kind: \"eof\" };\n  \n  ").toList = ⟨.between, out ++ tokenTypeToks⟩ :=
  scan_of (by decide +kernel) out

theorem scan_tokens {ts : List Sym} (h : ∀ s ∈ ts, ∀ k v, tokenKind s = some (k, v) → Plain2 v) (out : List TsTok) :
    scanFrom ⟨.between, out⟩ (tokensText ts) = ⟨.between, out ++ tokensToks ts⟩ := by
  unfold tokensText tokensToks
  rw [scanFrom_append, scanFrom_append, scanFrom_append, scan_tokenType]
  scan_lits
  rw [scan_flatMap (g := tokenToks) (fun p hp out => scan_token (h p.1 (List.fst_mem_of_mem_zipIdx hp)) out)]
  scan_lits

def productionToks (p : (Str × List Nat) × Nat) : List TsTok :=
  [.num p.2, .punct ':', .punct '{', .word "name".toList, .punct ':', .str p.1.1, .punct ',', .word "tokens".toList, .punct ':', .punct '['] ++
    (p.1.2.flatMap (fun k => [.num k, .punct ',']) ++ [.punct ']', .punct '}', .newline])

theorem scan_production {p : (Str × List Nat) × Nat} (h : Plain2 p.1.1) (out : List TsTok) :
    scanFrom ⟨.between, out⟩ (productionText p) = ⟨.between, out ++ productionToks p⟩ := by
  have h1 : ∀ out, scanFrom ⟨.quoted '"' [], out⟩ p.1.1 = ⟨.quoted '"' p.1.1, out⟩ := fun out => scan_plain2 _ [] out h
  unfold productionText productionToks
  scan_lits
  simp only [h1]
  scan_lits
  rw [scan_flatMap (g := fun k => [.num k, .punct ',']) (fun k hk out => by scan_lits)]
  scan_lits

def productionTypeToks : List TsTok :=
  [.word "export".toList, .word "type".toList, .word "Production".toList, .punct '=', .punct '{', .newline,
    .word "name".toList, .punct ':', .word "string".toList, .punct ';', .newline,
    .word "tokens".toList, .punct ':', .word "Array".toList, .punct '<', .word "keyof".toList, .word "Tokens".toList, .punct '>',
    .punct ';', .newline, .punct '}', .punct ';', .newline, .newline]

theorem scan_productionType (out : List TsTok) : scanFrom ⟨.between, out⟩
    ("export type Production = {\n                name: string;\n                tokens: Array<keyof Tokens>;\n" ++
      "              };\n              \n              ").toList = ⟨.between, out ++ productionTypeToks⟩ :=
  scan_of (by decide +kernel) out

def productionsToks (ps : List (Str × List Nat)) : List TsTok :=
  productionTypeToks ++ ([.word "export".toList, .word "type".toList, .word "Productions".toList, .punct '=', .punct '{'] ++
    (ps.zipIdx.flatMap productionToks ++ [.newline, .punct '}', .newline, .newline]))

theorem scan_productions {ps : List (Str × List Nat)} (h : ∀ p ∈ ps, Plain2 p.1) (out : List TsTok) :
    scanFrom ⟨.between, out⟩ (productionsText ps) = ⟨.between, out ++ productionsToks ps⟩ := by
  unfold productionsText productionsToks
  rw [scanFrom_append, scanFrom_append, scanFrom_append, scan_productionType]
  scan_lits
  rw [scan_flatMap (g := productionToks) (fun p hp out => scan_production (h p.1 (List.fst_mem_of_mem_zipIdx hp)) out)]
  scan_lits

def actionToks : Action → List TsTok
  | .shift j => [.word "shift".toList, .punct ':', .num j]
  | .reduce r => [.word "reduce".toList, .punct ':', .num r]
  | .accept => [.word "accept".toList, .punct ':', .word "true".toList]

def actionEntryToks (e : Nat × Action) : List TsTok :=
  [.num e.1, .punct ':', .punct '{'] ++ (actionToks e.2 ++ [.newline, .punct '}', .newline])

theorem scan_action (a : Action) (out : List TsTok) :
    scanFrom (scanFrom ⟨.between, out⟩ (actionText a)) "\n}\n".toList =
      ⟨.between, out ++ (actionToks a ++ [.newline, .punct '}', .newline])⟩ := by
  cases a with
  | shift j =>
    have e1 : actionText (.shift j) = "shift: ".toList ++ digits j := rfl
    have e2 : actionToks (.shift j) = [.word "shift".toList, .punct ':', .num j] := rfl
    rw [e1, e2]
    scan_lits
  | reduce j =>
    have e1 : actionText (.reduce j) = "reduce: ".toList ++ digits j := rfl
    have e2 : actionToks (.reduce j) = [.word "reduce".toList, .punct ':', .num j] := rfl
    rw [e1, e2]
    scan_lits
  | accept =>
    have e1 : actionText .accept = "accept: true".toList := rfl
    have e2 : actionToks .accept = [.word "accept".toList, .punct ':', .word "true".toList] := rfl
    rw [e1, e2]
    scan_lits

theorem scan_actionEntry (e : Nat × Action) (out : List TsTok) :
    scanFrom ⟨.between, out⟩ (actionEntryText e) = ⟨.between, out ++ actionEntryToks e⟩ := by
  unfold actionEntryText actionEntryToks
  scan_lits
  rw [scan_action]
  scan_lits

def actionRowToks (r : Nat × List (Nat × Action)) : List TsTok :=
  [.num r.1, .punct ':', .punct '{'] ++ (r.2.flatMap actionEntryToks ++ [.newline, .punct '}', .newline])

theorem scan_actionRow (r : Nat × List (Nat × Action)) (out : List TsTok) :
    scanFrom ⟨.between, out⟩ (actionRowText r) = ⟨.between, out ++ actionRowToks r⟩ := by
  unfold actionRowText actionRowToks
  scan_lits
  rw [scan_flatMap (g := actionEntryToks) (fun e _ out => scan_actionEntry e out)]
  scan_lits

def actionTableToks (t : Table Nat Action) : List TsTok :=
  [.word "export".toList, .word "type".toList, .word "Action".toList, .punct '=', .punct '{'] ++
    (t.flatMap actionRowToks ++ [.newline, .punct '}', .newline])

theorem scan_actionTable (t : Table Nat Action) (out : List TsTok) :
    scanFrom ⟨.between, out⟩ (actionTableText t) = ⟨.between, out ++ actionTableToks t⟩ := by
  unfold actionTableText actionTableToks
  scan_lits
  rw [scan_flatMap (g := actionRowToks) (fun e _ out => scan_actionRow e out)]
  scan_lits

def gotoEntryToks (e : Str × Nat) : List TsTok := [.newline, .word e.1, .punct ':', .num e.2, .newline]

theorem scan_gotoEntry {e : Str × Nat} (h : WordName e.1) (out : List TsTok) :
    scanFrom ⟨.between, out⟩ (gotoEntryText e) = ⟨.between, out ++ gotoEntryToks e⟩ := by
  unfold gotoEntryText gotoEntryToks
  scan_lits
  simp only [scan_ident h]
  scan_lits

def gotoRowToks (r : Nat × List (Str × Nat)) : List TsTok :=
  [.num r.1, .punct ':', .punct '{'] ++ (r.2.flatMap gotoEntryToks ++ [.newline, .punct '}', .newline])

theorem scan_gotoRow {r : Nat × List (Str × Nat)} (h : ∀ e ∈ r.2, WordName e.1) (out : List TsTok) :
    scanFrom ⟨.between, out⟩ (gotoRowText r) = ⟨.between, out ++ gotoRowToks r⟩ := by
  unfold gotoRowText gotoRowToks
  scan_lits
  rw [scan_flatMap (g := gotoEntryToks) (fun e he out => scan_gotoEntry (h e he) out)]
  scan_lits

def gotoTableToks (t : Table Str Nat) : List TsTok :=
  [.word "export".toList, .word "type".toList, .word "Goto".toList, .punct '=', .punct '{'] ++
    (t.flatMap gotoRowToks ++ [.newline, .punct '}', .newline])

theorem scan_gotoTable {t : Table Str Nat} (h : ∀ r ∈ t, ∀ e ∈ r.2, WordName e.1) (out : List TsTok) :
    scanFrom ⟨.between, out⟩ (gotoTableText t) = ⟨.between, out ++ gotoTableToks t⟩ := by
  unfold gotoTableText gotoTableToks
  scan_lits
  rw [scan_flatMap (g := gotoRowToks) (fun e he out => scan_gotoRow (h e he) out)]
  scan_lits

def kindToks (e : Str × Nat) : List TsTok := [.str e.1, .punct ':', .num e.2, .newline]

theorem scan_kind {e : Str × Nat} (h : PlainName e.1) (out : List TsTok) :
    scanFrom ⟨.between, out⟩ (kindText e) = ⟨.between, out ++ kindToks e⟩ := by
  have h2 : ∀ out, scanFrom ⟨.quoted '\'' [], out⟩ e.1 = ⟨.quoted '\'' e.1, out⟩ :=
    fun out => scan_plain '\'' (.inr rfl) e.1 [] out h
  unfold kindText kindToks
  scan_lits
  simp only [h2]
  scan_lits

def kindsToks (ks : List (Str × Nat)) : List TsTok :=
  [.word "export".toList, .word "type".toList, .word "TokenKindToIdx".toList, .punct '=', .punct '{'] ++
    (ks.flatMap kindToks ++ [.newline, .punct '}', .newline])

theorem scan_kinds {ks : List (Str × Nat)} (h : ∀ e ∈ ks, PlainName e.1) (out : List TsTok) :
    scanFrom ⟨.between, out⟩ (kindsText ks) = ⟨.between, out ++ kindsToks ks⟩ := by
  unfold kindsText kindsToks
  scan_lits
  rw [scan_flatMap (g := kindToks) (fun e he out => scan_kind (h e he) out)]
  scan_lits

def typeDefsToks (t : ParseGen.Tables) (ts : List Sym) : List TsTok :=
  [.word "export".toList, .word "declare".toList, .word "module".toList, .word "type_defs".toList, .punct '{', .newline] ++
    (symbolsToks t.symbols ++ (tokensToks ts ++ (productionsToks t.productions ++ (actionTableToks t.action ++
    (gotoTableToks t.goto ++ (kindsToks t.kindToIdx ++ [.newline, .punct '}', .newline]))))))

/-- The names in the tables can be written down. -/
structure WritableNames (t : ParseGen.Tables) (ts : List Sym) : Prop where
  symbols : ∀ s ∈ t.symbols, WordName s
  tokens : ∀ s ∈ ts, ∀ k v, tokenKind s = some (k, v) → Plain2 v
  prods : ∀ p ∈ t.productions, Plain2 p.1
  goto : ∀ r ∈ t.goto, ∀ e ∈ r.2, WordName e.1
  kinds : ∀ e ∈ t.kindToIdx, PlainName e.1

theorem scan_typeDefs {t : ParseGen.Tables} {ts : List Sym} (h : WritableNames t ts) :
    scanFrom ⟨.between, []⟩ (t.typeDefsText ts) = ⟨.between, typeDefsToks t ts⟩ := by
  unfold ParseGen.Tables.typeDefsText typeDefsToks
  scan_lits
  rw [scan_symbols h.symbols, scan_tokens h.tokens, scan_productions h.prods, scan_actionTable, scan_gotoTable h.goto, scan_kinds h.kinds]
  scan_lits

end Verif.Spec
