import Verif.Proofs.EvalTotal
import Verif.Props.Usable
import Verif.Props.Writable

/-! # Property: the type of a sentence that is written down is its value (C97) -/

namespace Verif.Props
open Verif Spec FrontEnd MiniTs

theorem denotes_unique {files : Mod → TsProject.File} {m : Mod} {e : Exp} {t t' : Ty} (h : TsProject.Denotes files m e t)
    (h' : TsProject.Denotes files m e t') : t = t' := by
  obtain ⟨n, h⟩ := h
  obtain ⟨n', h'⟩ := h'
  have hs : ∀ n, Settles (fun k => run (TsProject.user files) (TsProject.prog files) k m)
      (run (TsProject.user files) (TsProject.prog files) n m) := fun n => ⟨fun _ _ _ h => ⟨n, fun _ hk => run_le h hk⟩⟩
  obtain ⟨k, hk⟩ := ev_ev (hs n) e [] t h
  obtain ⟨k', hk'⟩ := ev_ev (hs n') e [] t' h'
  exact Option.some.inj ((hk (max k k') (by omega)).symm.trans (hk' (max k k') (by omega)))

section
variable {H : Type} [DecidableEq H] {hash : List Item → H} {rx : Str → Option Hir} {ord : Nfa.Order} {text : Str}
  {ps : List Ast.Prod} {start : Ast.Prod} {g : Grammar} {max : Nat}

/-- **C97, trees.**  If the code is well typed, every parse tree has a value, whatever words stand for its regexes. -/
theorem C97_tree {V : Type} {S : Ts.Sem V} (hwt : WellTyped S ps) (he : Expressible ps) (hg : Grammar.fromAst ps = .ok g)
    (hst : ps.find? (fun p => p.isStart) = some start) {f : Forest} {ws : List Sym} (hf : IsTree g.prods start.name f ws)
    {us : List Str} (hu : List.Forall₂ (fun x u => ∀ s, x = .strLit s → u = s) ws us) : ∃! v, Eval S ps f us [v] := by
  obtain ⟨h1, h2, rfl⟩ := hf
  have hok := Grammar.gok_of_fromAst he hg
  have hne := Grammar.start_ne hok hg hst
  obtain ⟨vs, h3, h4⟩ := Ts.eval_total hwt he hg f h1 (by rw [h2]; simpa using hne.symm) us hu
  rw [h2] at h4
  cases h4 with
  | cons _ h =>
    cases h
    exact ⟨_, h3, fun v hv => by simpa using Ts.eval_unique hv h3⟩

/-- **C97, pieces.**  Files written for a usable grammar: words read as the leaves of a tree whose transitions are kept, with fewer than
50 leaves and nodes, written apart in a text of supported characters shorter than the tables: the type of the text is the start symbol
with the value of the tree, and nothing else. -/
theorem C97_pieces (ho : Reorders ord) (hh : TextNoCollisions hash text) (hr : ReadsGrammar text ps start)
    (hg : Grammar.fromAst ps = .ok g) (hU : Usable rx max ps) {out : Str × Str} (hc : compile hash rx ord text = .ok out)
    {files : Mod → TsProject.File} (hF : TsProject.ReadAs (compiledText max out) files) :
    ∃ ds al, Grammar.tokenDefs rx 0 g.tokens = .ok ds ∧ Overlap.removeOverlap (ofList (rangesOf ds)) = .ok al ∧
      ∀ f ws us s, IsTree g.prods start.name f ws → KeptTree g f → ws.length + f.post.length < 50 →
        List.Forall₂ (fun x u => u ≠ [] ∧ ∃ i, PToken al ds u i ∧ pieceSym g ds (0, i, u) = some x) ws us →
        Apart (Free ds) us s → s.length < max → (∀ c ∈ s, (LexGen.charCode c).isSome = true) →
        ∃ v, Eval (semOf (userOf ps)) ps f us [v] ∧
          ∀ t, TsProject.Denotes files .parse (parseOfLex s) t ↔ t = .tup [kindValue start.name (some v)] := by
  obtain ⟨ds, al, k1, k2, k3, k4⟩ := C65_exact ho hh hr hg hU hc hF
  refine ⟨ds, al, k1, k3, fun f ws us s hf hk hlt hu hs hl hsup => ?_⟩
  obtain ⟨l, hnew⟩ := (compile_eq hr hg).2.mp ⟨out, hc⟩
  have he := (C51_expressible hr.parsed).1
  obtain ⟨ds', d1, d2⟩ := Grammar.lexer_ok (new_ok hnew).2.1
  obtain rfl : ds' = ds := Except.ok.inj (d1.symm.trans k1)
  obtain ⟨al', a1, a2, _⟩ := C11_exact ho d2
  rw [k3] at a1; cases a1
  have hlit : List.Forall₂ (fun x u => ∀ s, x = Sym.strLit s → u = s) ws us := by
    refine hu.imp fun x u hxu s e => ?_
    obtain ⟨hne, i, h1, h2⟩ := hxu
    obtain ⟨p, hp, hm⟩ := a2 u i hne h1
    obtain ⟨y, k, h3, h4, h5, h6⟩ := k2.each p (List.mem_of_getElem? hp)
    simp only [pieceSym, hp, Option.bind_some, h5, h3, Option.some.injEq] at h2
    subst h2 e
    exact (h6 u).mp hm
  obtain ⟨v, hv⟩ := (C97_tree hU.code.typed he hg hr.2 hf hlit).exists
  refine ⟨v, hv, ?_⟩
  have his : ∃ is, List.Forall₂ (fun i u => u ≠ [] ∧ PToken al ds' u i) is us ∧
      (is.zip us).map (fun p => pieceSym g ds' (0, p)) = ws.map some := by
    clear hf hs hv hlit hlt
    induction hu with
    | nil => exact ⟨[], .nil, rfl⟩
    | @cons x u ws us hxu _ ih =>
      obtain ⟨is, h3, h4⟩ := ih
      obtain ⟨hne, i, h5, h6⟩ := hxu
      exact ⟨i :: is, .cons ⟨hne, h5⟩ h3, by simp [h4, h6]⟩
  obtain ⟨is, h3, h4⟩ := his
  obtain ⟨pieces, _, m2, m3⟩ := apart_munch ds' al h3 hs
  obtain ⟨out', err, b1, b2, b3⟩ := k4 s hl hsup
  obtain ⟨rfl, rfl⟩ := b2 _ _ m2
  have hws' : pieces.map (pieceSym g ds') = (is.zip us).map (fun p => pieceSym g ds' (0, p)) := by
    rw [← m3, List.map_map]; rfl
  have hus : pieces.map (fun p => p.2.2) = us := by
    have := congrArg (List.map Prod.snd) m3
    rw [List.map_map, List.map_snd_zip (by have := h3.length_eq; omega)] at this
    exact this
  rcases b3 with ⟨i, c, h, _⟩ | ⟨_, ws', c1, c2, _⟩
  · cases h
  · obtain rfl : ws' = ws := (List.map_inj_right (fun _ _ => Option.some.inj)).mp (c1.symm.trans (hws'.trans h4))
    have key := (c2 v).mpr ⟨f, hf, hk, hlt, by rw [hus]; exact hv⟩
    exact fun t => ⟨fun ht => denotes_unique ht key, fun ht => ht ▸ key⟩

/-- **C97, from the text of the grammar.**  As `C65_text_partial`: files are written and read as TypeScript in one way; words that spell the
leaves of such a tree, written apart, have as type the value of the tree.  What `Usable` and `GoodRanges` exclude, dropped
transitions and trees with 50 or more leaves and nodes are the subject of C65, C28 and C91. -/
theorem C97_value (ho : Reorders ord) (hh : TextNoCollisions hash text) (hr : ReadsGrammar text ps start)
    (hg : Grammar.fromAst ps = .ok g) (h1 : RegexesOk rx ps) (h2 : Buildable (AstRule ps) start.name) (h3 : ¬ Clash g)
    (hU : Usable rx max ps) (hR : GoodRanges rx ps) :
    ∃ out files ds, compile hash rx ord text = .ok out ∧ TsProject.ReadAs (compiledText max out) files ∧
      (∀ files', TsProject.ReadAs (compiledText max out) files' → files' = files) ∧
      Grammar.tokenDefs rx 0 g.tokens = .ok ds ∧
      ∀ f ws us s, IsTree g.prods start.name f ws → KeptTree g f → ws.length + f.post.length < 50 →
        List.Forall₂ (Spells rx g) ws us → Apart (Free ds) us s → s.length < max → (∀ c ∈ s, (LexGen.charCode c).isSome = true) →
        ∃ v, Eval (semOf (userOf ps)) ps f us [v] ∧
          ∀ t, TsProject.Denotes files .parse (parseOfLex s) t ↔ t = .tup [kindValue start.name (some v)] := by
  obtain ⟨out, hc⟩ := (C64_writes (hash := hash) (rx := rx) ho hh).mpr ⟨ps, start, g, hr, hg, h1, h2, h3⟩
  obtain ⟨files, hF, hu⟩ := C65_project ho hr hU hc
  obtain ⟨ds, al, k1, k2, k3⟩ := C97_pieces ho hh hr hg hU hc hF
  refine ⟨out, files, ds, hc, hF, hu, k1, fun f ws us s hf hk hlt hsp => k3 f ws us s hf hk hlt (hsp.imp fun x u hxu => ?_)⟩
  obtain ⟨l, hnew⟩ := (compile_eq hr hg).2.mp ⟨out, hc⟩
  have he := (C51_expressible hr.parsed).1
  obtain ⟨ds', d1, d2⟩ := Grammar.lexer_ok (new_ok hnew).2.1
  obtain rfl : ds' = ds := Except.ok.inj (d1.symm.trans k1)
  obtain ⟨al', a1, _, a2⟩ := C11_exact ho d2
  rw [k2] at a1; cases a1
  have ha : AtomsOk (ds'.map Prod.snd) := by
    have h1 := hR.atoms _ (Grammar.ranges_iff he hg d1)
    have h2 : TermAfter rx ps = After (ds'.map Prod.snd) := by
      funext w m; exact propext (Grammar.after_iff he hg d1 w m).symm
    rw [h2] at h1
    simpa [AtomsOk, rangesOf, List.flatMap_map] using h1
  obtain ⟨i, h5, h6⟩ := (spells_iff (Grammar.declares d1) hxu.1).mp hxu
  exact ⟨hxu.1, i, ((a2 ha).1 u i hxu.1).mpr h5, h6⟩

end

theorem nest_free {c : Char} (h : Blank c) : Free nestDefs c := by
  refine ⟨h, ?_⟩
  have key : ∀ r ∈ rangesOf nestDefs, ¬ Mem ' '.toNat r ∧ ¬ Mem '\n'.toNat r := by unfold Mem; decide +kernel
  rcases h with rfl | rfl
  · exact fun r hr => (key r hr).1
  · exact fun r hr => (key r hr).2

theorem nest_spells : List.Forall₂ (Spells nestRx (lower nestAst)) [.strLit "(".toList, .strLit "x".toList, .strLit ")".toList]
    ["(".toList, "x".toList, ")".toList] := by
  have key : ∀ s : Str, s ≠ [] → .strLit s ∈ (lower nestAst).tokens → Spells nestRx (lower nestAst) (.strLit s) s :=
    fun s => C96_literal nest_expressible nest_generated.ast
  refine .cons (key _ (by simp) ?_) (.cons (key _ (by simp) ?_) (.cons (key _ (by simp) ?_) .nil)) <;> (rw [nest_tokens]; simp)

-- C97: the hypotheses for `nestText`, the sentence `( x )` written over two lines, and its type.
example : ReadsGrammar nestText nestAst (startOf nestAst) ∧ RegexesOk nestRx nestAst ∧
    Buildable (AstRule nestAst) (startOf nestAst).name ∧ ¬ Clash (lower nestAst) ∧ Usable nestRx 300 nestAst ∧ GoodRanges nestRx nestAst ∧
    IsTree (lower nestAst).prods "S".toList nestTree [.strLit "(".toList, .strLit "x".toList, .strLit ")".toList] ∧
    KeptTree (lower nestAst) nestTree ∧ Apart (Free nestDefs) ["(".toList, "x".toList, ")".toList] "( x\n)".toList ∧
    ∃ out files, compile id nestRx (fun _ l => l) nestText = .ok out ∧ TsProject.ReadAs (compiledText 300 out) files ∧
      ∀ t, TsProject.Denotes files .parse (parseOfLex "( x\n)".toList) t ↔
        t = .tup [kindValue "S".toList (some (Lisp.record [("of", Lisp.record [("text", .str "x".toList)])]))] := by
  have hw := (compile_eq (hash := id) (rx := nestRx) (ord := fun _ l => l) nest_reads nest_generated.ast).2.mpr ⟨_, nest_generated.new⟩
  obtain ⟨ps, start, g, h1, h2, h3, h4, h5⟩ := (C64_writes reorders_id (textNoCollisions_id _)).mp hw
  obtain ⟨rfl, rfl⟩ := nest_reads.unique h1
  obtain rfl : g = lower nestAst := Except.ok.inj (h2.symm.trans nest_generated.ast)
  obtain ⟨out, files, ds, k1, k2, _, k3, k4⟩ := C97_value (hash := id) reorders_id (textNoCollisions_id _) h1 h2 h3 h4 h5 nest_usable nest_goodRanges
  obtain rfl : ds = nestDefs := Except.ok.inj (k3.symm.trans nest_defs)
  have hn : (startOf nestAst).name = "S".toList := by decide +kernel
  have hk := C65_kept (textNoCollisions_id _) nest_reads nest_generated.ast k1 nest_kept (hn ▸ nest_tree)
  have ha : Apart (Free nestDefs) ["(".toList, "x".toList, ")".toList] "( x\n)".toList :=
    .word (w := "(".toList) (nest_free (.inl rfl)) (.word (w := "x".toList) (nest_free (.inr rfl)) (.last (w := ")".toList)))
  refine ⟨h1, h3, h4, h5, nest_usable, nest_goodRanges, nest_tree, hk, ha, out, files, k1, k2, ?_⟩
  obtain ⟨v, hv, hd⟩ := k4 nestTree _ _ _ (hn ▸ nest_tree) hk (by decide) nest_spells ha (by decide) (by rw [charCode_fun]; decide +kernel)
  obtain rfl := List.cons.inj (Ts.eval_unique hv nest_eval) |>.1
  rw [hn] at hd
  exact hd

end Verif.Props
