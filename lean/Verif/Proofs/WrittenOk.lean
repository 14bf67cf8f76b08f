import Verif.Proofs.TsGenFileOk
import Verif.Proofs.TsFuel
import Verif.Proofs.GenFileOk
import Verif.Props.Generated

/-! # The texts written for a grammar are files of TypeScript -/

namespace Verif.Props
open Verif Spec MiniTs

section
variable {H : Type} [DecidableEq H] {hash : List Item → H} {rx : Str → Option Hir} {ord : Nfa.Order}
  {ps : List Ast.Prod} {start : Ast.Prod} {g : Grammar} {l : Lalr} {T : ParseGen.Tables} {max : Nat}

theorem _root_.Verif.Spec.TsWritable.plain (h : TsWritable ps) : PlainGrammar ps :=
  ⟨fun p hp => (h.heads p hp).1, fun p hp b hb s hs n hn => (h.refs p hp b hb s hs n hn).1, h.terms⟩

/-- The actions come from the bodies. -/
theorem Emitted.act (hE : Emitted hash rx ord ps start g l T max) {a : ParseGen.Act} (ha : a ∈ T.acts) :
    ∃ p ∈ ps, ∃ b ∈ p.bodies, a.name = p.name ∧ a.code = b.mapping ∧ a.inputs = b.inputs.map ParseGen.plain ∧
      ∀ s ∈ b.inputs, ParseGen.Written s := by
  have hT := hE.tables
  simp only [ParseGen.generate, bind, Except.bind, pure, Except.pure] at hT
  cases h1 : ParseGen.actsOf ps with
  | error e => simp [h1] at hT
  | ok as =>
    cases h2 : ParseGen.genProductions l.grammar l.grammar.prods with
    | error e => simp only [h1, h2] at hT; split at hT <;> cases hT
    | ok pr =>
      simp only [h1, h2] at hT
      split at hT
      · cases hT
      split at hT
      · cases hT
      cases hT
      obtain ⟨b, hb, hin, hc, hn⟩ := actsFrom_mem h1 a ha
      obtain ⟨p, hp, hpn, hpb⟩ := ParseGen.mem_bodiesOf hb
      have hw : ∀ s ∈ b.2.inputs, ParseGen.Written s := fun s hs => ParseGen.written hE.gen.expr hE.names.written hp hpb hs
      rw [ParseGen.paramsOf_ok hw] at hin
      exact ⟨p, hp, b.2, hpb, hn.trans hpn.symm, hc, (Except.ok.inj hin).symm, hw⟩

/-- The nonterminals among the tokens are not reserved. -/
theorem _root_.Verif.Spec.TsWritable.token (h : TsWritable ps) (hG : Generated hash rx ord ps start g l) {n : Str} (hs : Sym.nonTerm n ∈ g.tokens) :
    n ∉ TsProject.reserved := by
  obtain ⟨g', h1, h2, h3, h4, h5⟩ := Grammar.fromAst_spec hG.first
  rw [hG.ast] at h1
  cases h1
  rw [h5, List.mem_cons, mem_ofList, h4, List.flatMap_cons, List.mem_append, List.mem_singleton] at hs
  rcases hs with hs | hs | hs
  · cases hs
  · cases hs
    exact (h.heads start (List.mem_of_find?_eq_some hG.first)).2
  · simp only [List.mem_flatMap, List.mem_map] at hs
    obtain ⟨_, ⟨p, hpp, b, hb, rfl⟩, hs⟩ := hs
    obtain ⟨t, ht, e⟩ := List.mem_map.mp hs
    exact (h.refs p hpp b hb t ht n e).2

theorem condsOk {act : Nat} : ∀ {ss : List Ast.InSym} (i : Nat), (∀ s ∈ ss, ParseGen.Written s) → (∀ n ∈ names ss, WordName n) →
    (∀ s ∈ ss, ∀ n, s.lower = .nonTerm n → WordName n ∧ n ∉ TsProject.reserved) →
    (∀ s ∈ ss, IsTerm s.lower → PlainName (spelling s.lower)) → (∀ n r, Ast.InSym.named n (.regex r) ∉ ss) →
    (∀ c ∈ (ParseGen.checks act i (ss.map ParseGen.plain)).1, TsProject.CondOk c) ∧ ∀ p ∈ ss.map ParseGen.plain, TsProject.ParamOk p
  | [], _, _, _, _, _, _ => by simp [ParseGen.checks]
  | s :: ss, i, hw, hn, hr, ht, hx => by
    rw [Ts.names_cons] at hn
    have ih := condsOk (act := act) (ss := ss) (i + 1) (fun x hx => hw x (List.mem_cons_of_mem _ hx))
      (fun n h => hn n (List.mem_append_right _ h)) (fun x hx => hr x (List.mem_cons_of_mem _ hx))
      (fun x hx => ht x (List.mem_cons_of_mem _ hx)) (fun n r h => hx n r (List.mem_cons_of_mem _ h))
    have one : (∀ c ∈ (ParseGen.paramChecks act (i + 1) (ParseGen.plain s)).1, TsProject.CondOk c) ∧ TsProject.ParamOk (ParseGen.plain s) := by
      cases s with
      | named n ty =>
        obtain ⟨h1, h2⟩ := (hw _ (List.mem_cons_self ..)).2.2 n ty rfl
        have h0 := hw _ (List.mem_cons_self ..)
        cases n with
        | none => exact absurd rfl h1
        | some n =>
          have hwn : WordName n := hn n (List.mem_append_left _ (List.mem_singleton.mpr rfl))
          cases ty with
          | named m t => exact absurd rfl (h2 m t)
          | epsilon => exact absurd rfl h0.1
          | eof => exact absurd rfl h0.2.1
          | nonTerm k =>
            have hk := hr _ (List.mem_cons_self ..) k rfl
            refine ⟨fun c hc => ?_, hwn⟩
            rw [List.mem_singleton.mp hc]
            exact ⟨hwn, hk⟩
          | strLit k =>
            have hk := ht _ (List.mem_cons_self ..) trivial
            refine ⟨fun c hc => ?_, hwn⟩
            rcases List.mem_cons.mp hc with rfl | hc
            · exact hwn
            · rw [List.mem_singleton.mp hc]
              exact ⟨hwn, hk⟩
          | regex k => exact absurd (List.mem_cons_self ..) (hx (some n) k)
      | _ => exact ⟨fun c hc => absurd hc List.not_mem_nil, trivial⟩
    rw [List.map_cons]
    refine ⟨fun c hc => ?_, fun p hp => ?_⟩
    · rcases List.mem_append.mp hc with hc | hc
      · exact one.1 c hc
      · exact ih.1 c hc
    · rcases List.mem_cons.mp hp with rfl | hp
      · exact one.2
      · exact ih.2 p hp

theorem genOk_of (hE : Emitted hash rx ord ps start g l T max) (hR : Readable ps) (h : TsWritable ps) :
    TsProject.GenOk ps T g.tokens := by
  have hG := hE.gen
  have hsy := hE.genOk.symbols
  obtain ⟨e0, _, e7⟩ := new_ok hG.new
  obtain ⟨e1, e2, e3, e4, e5, e6⟩ := ParseGen.generate_fields hE.tables
  obtain ⟨r1, r2⟩ := Lalr.makeTables_rows e7
  refine ⟨h.plain.writable hG hE.tables, ?_, ?_, ?_, ?_, ?_⟩
  · rw [hsy]
    intro hnil
    have := List.mem_of_find?_eq_some hG.first
    rw [List.map_eq_nil_iff.mp hnil] at this
    cases this
  · rw [e4]
    intro r hr e he
    have := (r2.2 r hr).2 e he
    simp only [Grammar.nonTerminals, List.mem_filterMap] at this
    obtain ⟨s, hs, h9⟩ := this
    cases s <;> simp only [Sym.asNonTerminal, Option.some.injEq, reduceCtorEq] at h9
    subst h9
    exact TsProject.free_extends (h.token hG hs)
  · intro v hv
    have : ∀ (qs : List Ast.Prod) (m : List (Str × Str)), v ∈ qs.foldl (fun m p => minsert p.name p.tsCode m) m →
        v ∈ m ∨ ∃ p ∈ qs, v = (p.name, p.tsCode) := by
      intro qs
      induction qs with
      | nil => exact fun m hm => .inl hm
      | cons q qs ih =>
        intro m hm
        rcases ih _ hm with hm | ⟨p, hp, e⟩
        · rcases mem_minsert_imp hm with e | hm
          · exact .inr ⟨q, List.mem_cons_self .., e⟩
          · exact .inl hm
        · exact .inr ⟨p, List.mem_cons_of_mem _ hp, e⟩
    rcases this ps [] hv with h0 | ⟨p, hp, rfl⟩
    · cases h0
    · exact ⟨(h.heads p hp).1, hR.types p hp⟩
  · intro a ha
    obtain ⟨p, hp, b, hb, h1, h2, h3, h4⟩ := hE.act ha
    obtain ⟨e, he, _⟩ := hR.code p hp b hb
    have hc := condsOk (act := a.idx) 0 h4 (h.params p hp b hb) (h.refs p hp b hb) (h.terms p hp b hb) (h.regexes p hp b hb)
    have hs := (TsProject.readType_words (h2 ▸ he : readType a.code = some e)).1
    refine ⟨h1 ▸ (h.heads p hp).1, ?_, h3 ▸ hc.2, hs, h2 ▸ h.closed p hp b hb⟩
    rw [ParseGen.validate, h3]
    exact hc.1
  · intro a ha
    obtain ⟨p, hp, b, hb, h1, h2, h3, h4⟩ := hE.act ha
    obtain ⟨e, he, _⟩ := hR.code p hp b hb
    rw [h2, he]
    rfl

/-- The text of a generated file. -/
def writtenText (ps : List Ast.Prod) (max : Nat) (l : Lalr) (T : ParseGen.Tables) : Mod → Option Str
  | .gen => some (ParseGen.fileText ps l T)
  | .states => some (LexGen.Tables.new l.lexer).text
  | .chars => some (LexGen.charsText LexGen.charMap)
  | .arith => some (LexGen.arithText max)
  | _ => none

theorem chars_reads {m : List (Nat × Nat)} (h : Breakless m) : TsProject.Reads (LexGen.charsText m) (charsFile m) :=
  ⟨_, TsSyntax.scan_eq (TsProject.scan_chars h), TsProject.it_chars m⟩

theorem written_reads (hE : Emitted hash rx ord ps start g l T max) (ho : Reorders ord) (hR : Readable ps) (h : TsWritable ps)
    {m : Mod} {text : Str} (ht : writtenText ps max l T m = some text) :
    TsProject.Reads text (projectOf ps (genOf max l T) m) := by
  obtain ⟨e0, e1, _⟩ := new_ok hE.gen.new
  cases m <;> simp only [writtenText, Option.some.injEq, reduceCtorEq] at ht <;> subst ht
  · exact ⟨_, TsSyntax.scan_eq (TsProject.scan_arith max), TsProject.it_arith max⟩
  · simp only [projectOf, genOf]
    exact chars_reads charMap_breakless
  · refine ⟨_, TsSyntax.scan_eq (TsProject.scan_lexText ?_), TsProject.it_lex _⟩
    unfold Grammar.lexer at e1
    cases hd : Grammar.tokenDefs rx 0 g.tokens with
    | error e => rw [hd] at e1; cases e1
    | ok ds =>
      rw [hd] at e1
      refine lexNames_plain ho e1 fun p hp => ?_
      obtain ⟨s, k, h1, h2, h3, _⟩ := (Grammar.tokenDefs_spec hd).1 p hp
      rw [h3]
      exact ((h.plain.tokens hE.gen (List.mem_of_getElem? h1)).2 h2).two
  · have hg := genOk_of hE hR h
    rw [← e0] at hg
    exact ⟨_, TsProject.scan_fileText hg, TsProject.it_file hg⟩

end

end Verif.Props
