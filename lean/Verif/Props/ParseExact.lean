import Verif.Proofs.KeptOk
import Verif.Props.EndToEnd

/-! # What the parser accepts, whatever transitions are dropped (C66, C52) -/

namespace Verif.Props
open Verif Spec

section
variable {H : Type} [DecidableEq H] {hash : List Item → H} {ps : List Ast.Prod} {start : Ast.Prod}
  {g : Grammar} {depth : Nat} {action : Table Nat Action} {got : Table Str Nat} {states : List ItemSet}

/-- C66.  For one parse tree of a sentence: the parser answers with the postorder of that tree just
when every transition along the tree is kept, and then in as many iterations as the tree has nodes and
leaves plus one. -/
theorem C66_tree (hB : Built hash ps start g depth action got states) (hc : NoCollisions hash g depth)
    {ws : List Sym} {f : Forest} (hf : IsTree g.prods start.name f ws) {w : List Nat} (hn : Numbers g w ws)
    (rest : List Nat) :
    ((∃ fuel, Lalr.parseIdx g action got fuel (w ++ 0 :: rest) = .ok f.post) ↔ KeptTree g f) ∧
    (KeptTree g f → ∀ fuel, ws.length + f.post.length < fuel →
      Lalr.parseIdx g action got fuel (w ++ 0 :: rest) = .ok f.post) := by
  have hok := hB.ok
  obtain ⟨look, hT, hW⟩ := hB.walk hc
  have hfwd : KeptTree g f → ∀ fuel, ws.length + f.post.length < fuel →
      Lalr.parseIdx g action got fuel (w ++ 0 :: rest) = .ok f.post := by
    intro hk fuel hfu
    obtain ⟨h1, h2, rfl⟩ := hf
    exact Lalr.follow_walk hok hT ((hW f).mpr hk) (Grammar.start_prod hB.ast hB.first) h1 h2 hn hfu
  refine ⟨⟨?_, fun hk => ⟨_, hfwd hk _ (Nat.lt_succ_self _)⟩⟩, hfwd⟩
  rintro ⟨fuel, hp⟩
  have h0 : 0 ∉ w := Numbers.ne_zero hok hn (by
    obtain ⟨h1, _, rfl⟩ := hf
    exact Forest.yield_term f h1)
  obtain ⟨ws', f', _, ⟨h1', h2', _⟩, hpost, hw⟩ := hB.accepted hT.toTabSound h0 hp
  obtain ⟨h1, h2, _⟩ := hf
  obtain ⟨_, rfl⟩ := Forest.unique f f' [] [] h1 h1' (h2.trans h2'.symm) (by simp [hpost])
  exact (hW _).mp hw

/-- C66.  The parser accepts the tokens before an end marker just when they have a parse tree all of
whose transitions are kept. -/
theorem C66_language (hB : Built hash ps start g depth action got states) (hc : NoCollisions hash g depth)
    {ws : List Sym} {w : List Nat} (hn : Numbers g w ws) (h0 : 0 ∉ w) (rest out : List Nat) :
    (∃ fuel, Lalr.parseIdx g action got fuel (w ++ 0 :: rest) = .ok out) ↔
      ∃ f, IsTree g.prods start.name f ws ∧ KeptTree g f ∧ f.post = out := by
  constructor
  · rintro ⟨fuel, hp⟩
    obtain ⟨look, hT, hW⟩ := hB.walk hc
    obtain ⟨ws', f, hn', hf, hpost, hw⟩ := hB.accepted hT.toTabSound h0 hp
    have := hn.inj hn'
    subst this
    exact ⟨f, hf, (hW f).mp hw, hpost⟩
  · rintro ⟨f, hf, hk, rfl⟩
    exact (C66_tree hB hc hf hn rest).1.mpr hk

/-- C66.  For grammars whose nonterminals all derive strings of terminals: every parse tree is found
just when the tables have every transition. -/
theorem C66_every_tree (hB : Built hash ps start g depth action got states) (hc : NoCollisions hash g depth)
    (hP : Productive (AstRule ps) start.name) :
    (∀ ws f w, IsTree g.prods start.name f ws → Numbers g w ws →
      ∃ fuel, Lalr.parseIdx g action got fuel (w ++ [0]) = .ok f.post) ↔
    AllTransitions g states action got := by
  constructor
  · intro hall
    rw [C26_exact hB.expr hB.ast hc hB.tables]
    rintro I X hI ⟨it, la, d, p, hd, hadv, hp, hi⟩
    obtain ⟨la', hI'⟩ := (sameCore_lalrOf hI _).mpr ⟨la, hadv⟩
    have hpm := List.mem_of_getElem? hp
    obtain ⟨r, hr1, hr2⟩ := forest_of (g := g) (p.inputs.drop d) fun x hx => hB.productive hP hpm (List.mem_of_mem_drop hx)
    obtain ⟨F, ws, hF, hkept⟩ := hB.context hP hI _ _ hI' p hp r hr1 hr2
    obtain ⟨w, hw⟩ := hB.number hF
    have hK := hkept ((C66_tree hB hc hF hw []).1.mp (hall ws F w hF hw))
    obtain ⟨hlt, he⟩ := List.getElem?_eq_some_iff.mp hi
    rw [List.drop_eq_getElem_cons hlt, he] at hr2
    cases r with
    | nil => simp [Forest.roots] at hr2
    | leaf t r =>
      simp only [Forest.roots, List.cons.injEq] at hr2
      rw [← hr2.1]; exact hK.1
    | node q kids r =>
      obtain ⟨_, prod, hq, hk, _⟩ := hK
      simp only [Forest.roots, hq, Option.map_some, Option.getD_some, List.cons.injEq] at hr2
      rw [← hr2.1]; exact hk
  · intro hA ws f w hf hn
    have hok := hB.ok
    obtain ⟨look, hT⟩ := hB.tab hc
    obtain ⟨h1, h2, rfl⟩ := hf
    exact ⟨_, Lalr.follow_start hok hT ((hT.transitions hok).mp hA) (Grammar.start_prod hB.ast hB.first) h1 h2 hn
      (Nat.lt_succ_self _)⟩

/-- C66.  If the tables have every transition, the transitions along every parse tree are kept. -/
theorem C66_all (hB : Built hash ps start g depth action got states) (hc : NoCollisions hash g depth)
    (hA : AllTransitions g states action got) {ws : List Sym} {f : Forest} (hf : IsTree g.prods start.name f ws) : KeptTree g f := by
  obtain ⟨w, hw⟩ := hB.number hf
  refine (C66_tree hB hc hf hw []).1.mp ?_
  obtain ⟨look, hT⟩ := hB.tab hc
  obtain ⟨h1, h2, rfl⟩ := hf
  exact ⟨_, Lalr.follow_start hB.ok hT ((hT.transitions hB.ok).mp hA) (Grammar.start_prod hB.ast hB.first) h1 h2 hw
    (Nat.lt_succ_self _)⟩

/-- C66.  Of the parse trees of a sentence at most one has all its transitions kept. -/
theorem C66_unique (hB : Built hash ps start g depth action got states) (hc : NoCollisions hash g depth)
    {ws : List Sym} {f f' : Forest} (hf : IsTree g.prods start.name f ws) (hf' : IsTree g.prods start.name f' ws)
    (hk : KeptTree g f) (hk' : KeptTree g f') : f = f' := by
  obtain ⟨w, hw⟩ := hB.number hf
  have e1 := (C66_tree hB hc hf hw []).2 hk (ws.length + f.post.length + f'.post.length + 1) (by omega)
  have e2 := (C66_tree hB hc hf' hw []).2 hk' (ws.length + f.post.length + f'.post.length + 1) (by omega)
  rw [e1] at e2
  exact (Forest.unique f f' [] [] hf.1 hf'.1 (hf.2.1.trans hf'.2.1.symm) (by simpa using e2)).2

/-- C52, exactly, for all tables: the parser answers with the postorder of the parse tree of the tokens before the
end marker all of whose transitions are kept, if there is one; otherwise it fails or never stops, the latter only for a
grammar with a unit cycle.  Missing: that it stops and accepts every sentence (`C28_false`, `C30_false`), colliding
hashes (`C62_false`). -/
theorem C52_kept_partial (hB : Built hash ps start g depth action got states) (hc : NoCollisions hash g depth)
    {w : List Nat} (h0 : 0 ∉ w) {ws : List Sym} (hn : Numbers g w ws)
    {rest : List Nat} {fuel : Nat} (hf : (2 * w.length + 1) * (g.prods.length + 1) ≤ fuel) :
    (∀ f, IsTree g.prods start.name f ws → KeptTree g f →
      Lalr.parseIdx g action got fuel (w ++ 0 :: rest) = .ok f.post) ∧
    ((∀ f, IsTree g.prods start.name f ws → ¬ KeptTree g f) →
      Lalr.parseIdx g action got fuel (w ++ 0 :: rest) = .error .invalidToken ∨
      Lalr.parseIdx g action got fuel (w ++ 0 :: rest) = .error .gotoEmpty ∨
      (∀ fuel', Lalr.parseIdx g action got fuel' (w ++ 0 :: rest) = .error .outOfFuel) ∧
        ∃ A, UnitPlus (AstRule ps) A (.nonTerm A)) := by
  obtain ⟨hterm, _, hcyc⟩ := C30_exact hB (toks := w ++ 0 :: rest) (n := w.length) (by simp)
  constructor
  · intro f hT hk
    have := (C66_tree hB hc hT hn rest).2 hk (ws.length + f.post.length + 1 + fuel) (by omega)
    rcases hterm with hterm | hterm
    · rwa [Nat.add_comm _ fuel, Lalr.parseIdx_mono _ rfl (hterm fuel hf)] at this
    · rw [hterm] at this
      cases this
  · intro hno
    cases hp : Lalr.parseIdx g action got fuel (w ++ 0 :: rest) with
    | ok out =>
      obtain ⟨f, hT, hk, _⟩ := (C66_language hB hc hn h0 rest out).mp ⟨fuel, hp⟩
      exact absurd hk (hno f hT)
    | error e =>
      rcases C31_failures hB (by simp) hp with rfl | rfl | ⟨rfl, _⟩
      · rcases hterm with hterm | hterm
        · exact absurd hp (hterm fuel hf)
        · exact .inr (.inr ⟨hterm, hcyc hterm⟩)
      · exact .inl rfl
      · exact .inr (.inl rfl)

/-- C66.  When the parser reports an invalid token, or a missing goto, the tokens it has
shifted begin a sentence, and no parse tree that goes on as the tokens do, up to and with the token reported,
has all its transitions kept. -/
theorem C66_error (hB : Built hash ps start g depth action got states) (hc : NoCollisions hash g depth)
    (hP : Productive (AstRule ps) start.name) {toks : List Nat} {m : Nat} (hm : toks[m]? = some 0) {fuel : Nat} {e : Err}
    (hne : e ≠ .outOfFuel) (he : Lalr.parseIdx g action got fuel toks = .error e) :
    ∃ st0 n st ws, Lalr.startState toks = .ok st0 ∧ Runs g action got toks n st0 st ∧
      Lalr.step g action got toks st = .error e ∧
      st.i ≤ m ∧ Numbers g (toks.take st.i) ws ∧ (∃ v, Sentence (AstRule ps) start.name (ws ++ v)) ∧
      (toks[st.i]? = some 0 → ∀ f, IsTree g.prods start.name f ws → ¬ KeptTree g f) ∧
      ∀ k x, toks[st.i]? = some k → g.tokens[k]? = some x → ∀ v f, IsTree g.prods start.name f (ws ++ x :: v) →
        ¬ KeptTree g f := by
  have hok := hB.ok
  cases hs : Lalr.startState toks with
  | error e =>
    cases toks with
    | nil => simp at hm
    | cons a l => cases hs
  | ok st0 =>
    have hrun : Lalr.run g action got toks fuel st0 = .error e := by
      unfold Lalr.parseIdx at he
      cases hr : Lalr.run g action got toks fuel st0 with
      | ok st' => simp [hs, hr, bind, Except.bind, pure, Except.pure] at he
      | error e => simpa [hs, hr, bind, Except.bind] using he
    obtain ⟨n, st, hr, hst⟩ := Lalr.run_error hne fuel hrun
    obtain ⟨hle, ws, v, hnum, hsent⟩ := C34_viable_prefix hB hP hm hs hr
    have hlen : st.i < toks.length := by
      have := (List.getElem?_eq_some_iff.mp hm).1; omega
    have key : ∀ (u : List Nat) (us : List Sym) (rest : List Nat) (f : Forest), Numbers g u us →
        IsTree g.prods start.name f us → KeptTree g f → (∀ k ≤ st.i, (u ++ 0 :: rest)[k]? = toks[k]?) → False := by
      intro u us rest f hu hf hk hag
      have hr' := Lalr.runs_congr hr hag
      have hs' : Lalr.startState (u ++ 0 :: rest) = .ok st0 := by
        have h0 := hag 0 (Nat.zero_le _)
        cases toks with
        | nil => cases hs
        | cons a l =>
          cases hs
          cases htk : u ++ 0 :: rest with
          | nil => simp at htk
          | cons b l' =>
            rw [htk] at h0
            simp only [List.getElem?_cons_zero, Option.some.injEq] at h0
            subst h0
            rfl
      have h1 := hr'.error (Lalr.step_error hst) (fuel := us.length + f.post.length + 1 + n) (by omega)
      have h2 := (C66_tree hB hc hf hu rest).2 hk (us.length + f.post.length + 1 + n) (by omega)
      unfold Lalr.parseIdx at h2
      simp [hs', h1, bind, Except.bind] at h2
    refine ⟨st0, n, st, ws, rfl, hr, hst, hle, hnum, ⟨v, hsent⟩, ?_, ?_⟩
    · intro hz f hf hk
      refine key _ ws (toks.drop (st.i + 1)) f hnum hf hk fun k _ => ?_
      obtain ⟨hlt, hget⟩ := List.getElem?_eq_some_iff.mp hz
      rw [← hget, ← List.drop_eq_getElem_cons hlt, List.take_append_drop]
    · intro k x hk hx v' f hf hkf
      obtain ⟨u0, hu0⟩ := hB.number hf
      obtain ⟨u1, u2, _, _, hu2⟩ := List.map_eq_append_iff.mp (hu0.trans (List.map_append ..))
      obtain ⟨k', u, rfl, _, hu⟩ := List.map_eq_cons_iff.mp hu2
      refine key (toks.take st.i ++ k :: u) (ws ++ x :: v') [] f ?_ hf hkf fun k' hk' => ?_
      · unfold Numbers at hnum ⊢
        simp [hnum, hx, hu]
      · rw [List.append_assoc]
        by_cases hlt : k' < st.i
        · rw [List.getElem?_append_left (by simp; omega), List.getElem?_take_of_lt hlt]
        · have : k' = st.i := by omega
          subst this
          rw [List.getElem?_append_right (by rw [List.length_take]; omega)]
          simp only [List.length_take, Nat.min_eq_left (Nat.le_of_lt hlen), Nat.sub_self, List.cons_append,
            List.getElem?_cons_zero, hk]

end

section
variable {H : Type} [DecidableEq H] {hash : List Item → H} {rx : Str → Option Hir} {ord : Nfa.Order} {ps : List Ast.Prod}
  {start : Ast.Prod} {g : Grammar} {l : Lalr}

/-- C33, whatever transitions are dropped: the text is cut by maximal munch; the parser answers with the
postorder of a parse tree of the cut just when every transition along the tree is kept, and with nothing
else; it panics while slicing just when the position and length of a piece with a value, counted in
characters, are not the bounds in bytes of a text.
Missing: pieces that do not fit the ranges (`C33_false`), colliding hashes (`C62_false`). -/
theorem C33_kept_partial (hG : Generated hash rx ord ps start g l) (ho : Reorders ord)
    (hds : DistinctSpellings g) (hc : NoCollisions hash g (Lalr.depthOf g))
    {ds : List (TokenDef × Hir)} (hd : Grammar.tokenDefs rx 0 g.tokens = .ok ds)
    (ha : AtomsOk (ds.map Prod.snd)) (hv : ∀ p ∈ ds, NonVoid p.2) (input : Str) :
    ∃ pieces cut dropped ws, Declares rx g ds ∧ input = cut ++ dropped ∧ Lexes ds 0 input pieces dropped ∧
      pieces.map (pieceSym g ds) = ws.map some ∧
      (((¬ ∃ ts, List.Forall₂ (Carries ds input) pieces ts) ∧ (∃ c ∈ cut, 128 ≤ c.toNat) ∧
        ∀ fuel, l.parse fuel input = .error .charBoundary) ∨
       ((∃ ts, List.Forall₂ (Carries ds input) pieces ts) ∧
        (∀ f, IsTree g.prods start.name f ws → KeptTree g f → ∀ fuel, ws.length + f.post.length < fuel →
          l.parse fuel input = .ok f.post) ∧
        ∀ fuel out, l.parse fuel input = .ok out → ∃ f, IsTree g.prods start.name f ws ∧ KeptTree g f ∧ f.post = out)) := by
  obtain ⟨pieces, cut, dropped, ws, h1, h2, h3, h4, h5⟩ := parse_cut hG ho hds hd ha hv input
  refine ⟨pieces, cut, dropped, ws, h1, h2, h3, h4, h5.imp_right ?_⟩
  rintro ⟨hts, ks, k1, k2, k3, k4⟩
  refine ⟨hts, fun f hf hk fuel hlt => ?_, fun fuel out hp => ?_⟩
  · rw [k4]
    exact (C66_tree hG.built hc hf k1 []).2 hk fuel hlt
  · rw [k4] at hp
    exact (C66_language hG.built hc k1 k2 [] out).mp ⟨fuel, hp⟩

end

/-! ## The hypotheses hold -/

/-- A parse tree of `b c r`. -/
def threeShort : Forest :=
  .node 3 (.leaf (.strLit ['b']) (.node 5 (.leaf (.strLit ['c']) .nil) (.leaf (.strLit ['r']) .nil))) .nil

theorem three_tree : IsTree (lower threeAst).prods (startOf threeAst).name threeTree (lits ["x", "b", "c", "p"]) :=
  tree_of (by decide +kernel)

theorem three_short : IsTree (lower threeAst).prods (startOf threeAst).name threeShort (lits ["b", "c", "r"]) :=
  tree_of (by decide +kernel)

theorem three_accept : Lalr.parseIdx (lower threeAst) (tablesOf (lower threeAst)).1 (tablesOf (lower threeAst)).2.1 9
    ([1, 2, 5] ++ 0 :: []) = .ok threeShort.post := ok_of (by decide +kernel)

theorem three_productive : Productive (AstRule threeAst) (startOf threeAst).name := by
  have hC : Sentence (AstRule threeAst) "C".toList [.strLit "c".toList] := by
    refine ⟨by simp [IsTerm], .rule ⟨_, List.mem_of_getElem? (i := 2) rfl, _, List.mem_of_getElem? (i := 0) rfl, rfl, rfl⟩⟩
  have hBs : Sentence (AstRule threeAst) "B".toList [.strLit "b".toList, .strLit "c".toList] := by
    refine ⟨by simp [IsTerm], ?_⟩
    have h1 : Steps (AstRule threeAst) [.nonTerm "B".toList] [.strLit "b".toList, .nonTerm "C".toList] :=
      .rule ⟨_, List.mem_of_getElem? (i := 1) rfl, _, List.mem_of_getElem? (i := 0) rfl, rfl, rfl⟩
    exact h1.trans ((Steps.refl (α := [.strLit "b".toList])).append hC.2)
  refine ⟨⟨_, sentence_of three_expressible three_fromAst (startOf_eq (by decide +kernel)) three_tree⟩, ?_⟩
  rintro A rhs B ⟨p, hp, b, hb, _, rfl⟩ hB
  have : B = "B".toList ∨ B = "C".toList := by
    have h : ∀ p ∈ threeAst, ∀ b ∈ p.bodies, ∀ x ∈ b.inputs.map Ast.InSym.lower,
        x = .nonTerm "B".toList ∨ x = .nonTerm "C".toList ∨ ∀ B, x ≠ .nonTerm B := by
      intro p hp b hb x hx
      have h : ∀ p ∈ threeAst, ∀ b ∈ p.bodies, ∀ x ∈ b.inputs.map Ast.InSym.lower,
        (match x with | .nonTerm B => decide (B = "B".toList ∨ B = "C".toList) | _ => true) = true := by decide +kernel
      have := h p hp b hb x hx
      cases x <;> simp_all
    rcases h p hp b hb _ hB with h | h | h
    · exact .inl (Sym.nonTerm.inj h)
    · exact .inr (Sym.nonTerm.inj h)
    · exact absurd rfl (h B)
  rcases this with rfl | rfl
  · exact ⟨_, hBs⟩
  · exact ⟨_, hC⟩

-- C66_tree, C66_language: both sides hold of the tree of `b c r`, and neither of that of `x b c p`.
example : KeptTree (lower threeAst) threeShort ∧ ¬ KeptTree (lower threeAst) threeTree := by
  refine ⟨(C66_tree three_built (noCollisions_id _ _) three_short (w := [1, 2, 5]) (by unfold Numbers; decide +kernel) []).1.mp
    ⟨9, three_accept⟩, fun hk => ?_⟩
  have h1 := (C66_tree three_built (noCollisions_id _ _) three_tree (w := [6, 1, 2, 3]) (by unfold Numbers; decide +kernel) []).2 hk 9
    (by decide +kernel)
  exact absurd (h1.symm.trans three_reject) (by simp)

-- C66_every_tree: the hypotheses, of a grammar some transitions of which are dropped and of one with all.
example : Productive (AstRule threeAst) (startOf threeAst).name ∧
    ¬ (∀ ws f w, IsTree (lower threeAst).prods (startOf threeAst).name f ws → Numbers (lower threeAst) w ws →
      ∃ fuel, Lalr.parseIdx (lower threeAst) (tablesOf (lower threeAst)).1 (tablesOf (lower threeAst)).2.1 fuel (w ++ [0]) =
        .ok f.post) ∧
    Productive (AstRule ccAst) "S".toList := by
  refine ⟨three_productive, fun hall => ?_, cc_productive⟩
  obtain ⟨fuel, h⟩ := hall _ _ [6, 1, 2, 3] three_tree (by unfold Numbers; decide +kernel)
  have h1 := Lalr.parseIdx_mono fuel three_reject (by simp)
  have h2 := Lalr.parseIdx_mono 9 h (by simp)
  rw [Nat.add_comm] at h2
  exact absurd (h1.symm.trans h2) (by simp)

-- C66_unique, C52_kept_partial: the hypotheses, of tables with dropped transitions; and for tokens on which the parser
-- does not stop.
example : (KeptTree (lower threeAst) threeShort ∧ (0 : Nat) ∉ [1, 2, 5] ∧ Numbers (lower threeAst) [1, 2, 5] (lits ["b", "c", "r"])) ∧
    (0 : Nat) ∉ [13, 2, 1, 5] ∧ (∃ ws, Numbers (lower loopAst) [13, 2, 1, 5] ws) ∧
    ∀ fuel, Lalr.parseIdx (lower loopAst) (tablesOf (lower loopAst)).1 (tablesOf (lower loopAst)).2.1 fuel
      ([13, 2, 1, 5] ++ 0 :: []) = .error .outOfFuel := by
  refine ⟨⟨(C66_tree three_built (noCollisions_id _ _) three_short (w := [1, 2, 5]) (by unfold Numbers; decide +kernel) []).1.mp
    ⟨9, three_accept⟩, by decide, by unfold Numbers; decide +kernel⟩, by decide, ?_, loop_forever⟩
  exact ⟨[13, 2, 1, 5].filterMap fun k => (lower loopAst).tokens[k]?, by unfold Numbers; decide +kernel⟩

-- C66_error: the hypotheses, for `x b c p`, which is a sentence and refused.
example : Productive (AstRule threeAst) (startOf threeAst).name ∧ ([6, 1, 2, 3, 0] : List Nat)[4]? = some 0 ∧
    Lalr.parseIdx (lower threeAst) (tablesOf (lower threeAst)).1 (tablesOf (lower threeAst)).2.1 9 [6, 1, 2, 3, 0] =
      .error .invalidToken := ⟨three_productive, rfl, three_reject⟩

/-- The generated parser for `threeAst`. -/
def threeL : Lalr := (Lalr.new id (fun _ => none) (fun _ l => l) (lower threeAst)).toOption.getD ⟨⟨[], [], [], []⟩, ⟨⟨[], [], [], []⟩, [], []⟩, [], [], []⟩

/-- The lexer tokens of `threeAst`. -/
def threeDefs : List (TokenDef × Hir) :=
  (['b', 'c', 'p', 'q', 'r', 'x', 'y'].zipIdx 1).map fun p => (⟨[p.1], true, some p.2⟩, .lit p.1.toNat)

-- C33_kept_partial: the hypotheses, of tables with dropped transitions, a parse and a refusal.
example : Generated id (fun _ => none) (fun _ l => l) threeAst (startOf threeAst) (lower threeAst) threeL ∧
    DistinctSpellings (lower threeAst) ∧ Grammar.tokenDefs (fun _ => none) 0 (lower threeAst).tokens = .ok threeDefs ∧
    AtomsOk (threeDefs.map Prod.snd) ∧ (∀ p ∈ threeDefs, NonVoid p.2) ∧
    threeL.parse 9 "b c r".toList = .ok threeShort.post ∧ threeL.parse 9 "x b c p".toList = .error .invalidToken := by
  have htok : (lower threeAst).tokens = [.eof, .strLit ['b'], .strLit ['c'], .strLit ['p'], .strLit ['q'], .strLit ['r'],
      .strLit ['x'], .strLit ['y'], .nonTerm ['B'], .nonTerm ['C'], .nonTerm ['S']] := by decide +kernel
  refine ⟨⟨three_expressible, startOf_eq (by decide +kernel), three_fromAst, ok_of_isSome (by decide +kernel)⟩, ?_, ?_, ?_, ?_,
    ok_of (by decide +kernel), error_of (by decide +kernel)⟩
  · unfold DistinctSpellings
    rw [htok]
    have key : ∀ s ∈ (['b', 'c', 'p', 'q', 'r', 'x', 'y'].map fun c => Sym.strLit [c]),
        ∀ t ∈ (['b', 'c', 'p', 'q', 'r', 'x', 'y'].map fun c => Sym.strLit [c]), spelling s = spelling t → s = t := by decide +kernel
    have hmem : ∀ s ∈ ([.eof, .strLit ['b'], .strLit ['c'], .strLit ['p'], .strLit ['q'], .strLit ['r'], .strLit ['x'], .strLit ['y'],
        .nonTerm ['B'], .nonTerm ['C'], .nonTerm ['S']] : List Sym), IsTerm s →
        s ∈ (['b', 'c', 'p', 'q', 'r', 'x', 'y'].map fun c => Sym.strLit [c]) := by
      intro s hs h
      cases s with
      | strLit l => revert hs; simp
      | regex l => simp at hs
      | nonTerm l => exact h.elim
      | eof => exact h.elim
      | epsilon => simp at hs
    exact fun s hs t ht h1 h2 h => key s (hmem s hs h1) t (hmem t ht h2) h
  · rw [htok]; rfl
  · refine atomsOk_of_whole (whole_of_laminar ?_)
    have : rangesOf threeDefs = ['b', 'c', 'p', 'q', 'r', 'x', 'y'].map fun c => ⟨c.toNat, c.toNat + 1⟩ := by rfl
    rw [rangesOf_eq, this]
    intro a ha b hb
    obtain ⟨c, _, rfl⟩ := List.mem_map.mp ha
    obtain ⟨d, _, rfl⟩ := List.mem_map.mp hb
    by_cases hcd : c.toNat = d.toNat
    · exact .inr (.inl fun x h => by rw [← hcd]; exact h)
    · refine .inl fun x h1 h2 => ?_
      simp only [Mem] at h1 h2
      omega
  · intro p hp
    obtain ⟨q, _, rfl⟩ := List.mem_map.mp hp
    exact .lit q.1

end Verif.Props
