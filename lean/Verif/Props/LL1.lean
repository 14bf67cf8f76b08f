import Verif.Proofs.LL1Ok
import Verif.Props.Simple
import Verif.Props.Used

/-! # Property: LL(1) grammars always get a parser (C102)

LL(1): no terminal can begin two bodies of one nonterminal that can be reached.  Bodies are never empty here, so FOLLOW plays no part. -/

namespace Verif.Props
open Verif Verif.Spec

section
variable {H : Type} [DecidableEq H] {hash : List Item → H} {rx : Str → Option Hir} {ord : Nfa.Order} {ps : List Ast.Prod}
  {start : Ast.Prod} {g : Grammar} {depth : Nat} {action : Table Nat Action} {got : Table Str Nat} {states : List ItemSet}

theorem rule_ne (he : Expressible ps) (A : Str) : ¬ AstRule ps A [] := by
  rintro ⟨p, hp, b, hbb, -, hm⟩
  exact ((he p hp).2 b hbb).1 (List.map_eq_nil_iff.1 hm)

/-- **C102, left recursion.**  No nonterminal of an LL(1) grammar that can be reached is left recursive. -/
theorem C102_no_left_recursion (he : Expressible ps) (hf : ps.find? (fun p => p.isStart) = some start) (hg : Grammar.fromAst ps = .ok g)
    (hl : LL1 ps start.name) (hb : Begins ps start.name) {A : Str} (hA : Uses (AstRule ps) start.name A) : ¬ LeftRec (AstRule ps) A := by
  obtain ⟨t, ht⟩ := hb A hA
  exact (llG he hl hb hf hg).noRec ((starts_iff (rule_ne he)).1 ht) A rfl hA

theorem ll1_buildable (he : Expressible ps) (hf : ps.find? (fun p => p.isStart) = some start) (hg : Grammar.fromAst ps = .ok g)
    (hl : LL1 ps start.name) (hb : Begins ps start.name) : Buildable (AstRule ps) start.name := by
  refine ⟨fun A hA => ?_, fun A B hA hB => C102_no_left_recursion he hf hg hl hb (hA.uses.trans hB.uses)⟩
  obtain ⟨t, ht⟩ := hb A hA
  have h := (starts_iff (rule_ne he)).1 ht
  generalize hX : Sym.nonTerm A = X at h
  cases h with
  | term hn => exact absurd hX.symm (hn A)
  | nt hR _ => cases hX; exact ⟨_, hR⟩

/-- **C102, tables.**  For an LL(1) grammar tables are built: it has no conflict. -/
theorem C102_tables (he : Expressible ps) (hf : ps.find? (fun p => p.isStart) = some start) (hg : Grammar.fromAst ps = .ok g)
    (hc : NoCollisions hash g (Lalr.depthOf g)) (hl : LL1 ps start.name) (hb : Begins ps start.name) :
    ∃ r, Lalr.makeTables hash g (Lalr.depthOf g) = .ok r :=
  (C24_clash he hf hg (ll1_buildable he hf hg hl hb) hc).2.2 (stem_clash (Grammar.gok_of_fromAst he hg) (llG he hl hb hf hg))

/-- **C102.**  A parser is built for an LL(1) grammar just when its regexes are supported. -/
theorem C102_builds (he : Expressible ps) (hf : ps.find? (fun p => p.isStart) = some start) (hg : Grammar.fromAst ps = .ok g)
    (ho : Reorders ord) (hc : NoCollisions hash g (Lalr.depthOf g)) (hl : LL1 ps start.name) (hb : Begins ps start.name) :
    (∃ l, Lalr.new hash rx ord g = .ok l) ↔ RegexesOk rx ps := by
  rw [(new_iff he hf hg ho hc).1]
  exact and_iff_left ⟨ll1_buildable he hf hg hl hb, stem_clash (Grammar.gok_of_fromAst he hg) (llG he hl hb hf hg)⟩

theorem unit_left {R : Str → List Sym → Prop} {A : Str} {X : Sym} (h : UnitPlus R A X) :
    ∀ B, X = .nonTerm B → ∃ C, LeftCall R A C ∧ LeftReach R C B := by
  induction h with
  | one h => exact fun B hB => ⟨B, ⟨[], hB ▸ h⟩, .refl⟩
  | cons h _ ih =>
    intro B hB
    obtain ⟨C, h1, h2⟩ := ih B hB
    exact ⟨_, ⟨[], h⟩, .head h1 h2⟩

/-- **C102, termination.**  The parser of an LL(1) grammar stops on every list of tokens with an end marker, whatever the hash. -/
theorem C102_terminates (hB : Built hash ps start g depth action got states) (hl : LL1 ps start.name) (hb : Begins ps start.name) {toks : List Nat}
    {n : Nat} (hn : toks[n]? = some 0) {fuel : Nat} (hf : (2 * n + 1) * (g.prods.length + 1) ≤ fuel) :
    Lalr.parseIdx g action got fuel toks ≠ .error .outOfFuel := by
  exact C30_reachable_partial hB (fun A hA hu =>
    C102_no_left_recursion hB.expr hB.first hB.ast hl hb hA (unit_left hu A rfl)) hn hf

/-- **C102, trees.**  No text has two trees in an LL(1) grammar. -/
theorem C102_unambiguous (he : Expressible ps) (hf : ps.find? (fun p => p.isStart) = some start) (hg : Grammar.fromAst ps = .ok g)
    (hl : LL1 ps start.name) {f f' : Forest} {ws : List Sym} (h : IsTree g.prods start.name f ws) (h' : IsTree g.prods start.name f' ws) : f = f' := by
  have hok := Grammar.gok_of_fromAst he hg
  obtain ⟨h1, h2, h3⟩ := h
  obtain ⟨h1', h2', h3'⟩ := h'
  refine (forest_unique hok (llR hl hf hg) f f' [] [] h1 h1' (h2.trans h2'.symm) ?_ ?_ (by rw [h3, h3'])).1
  · rw [h2]
    exact hok.fresh _ (List.mem_of_getElem? (Grammar.start_prod hg hf))
  · intro B hB
    rw [h2, List.mem_singleton, Sym.nonTerm.injEq] at hB
    rw [hB]; exact .refl

/-- **C102, output.**  What the parser of an LL(1) grammar reduces by is the one tree of the text, whatever the hash and the transitions. -/
theorem C102_output (hB : Built hash ps start g depth action got states) (hl : LL1 ps start.name) {fuel : Nat} {toks out : List Nat}
    (hp : Lalr.parseIdx g action got fuel toks = .ok out) :
    ∃ w rest ws f, toks = w ++ 0 :: rest ∧ Numbers g w ws ∧ IsTree g.prods start.name f ws ∧ f.post = out ∧
      ∀ f', IsTree g.prods start.name f' ws → f' = f := by
  obtain ⟨w, rest, ws, f, h1, h2, -, h4, h5⟩ := C27_sound hB hp
  exact ⟨w, rest, ws, f, h1, h2, h4, h5, fun f' hf' => C102_unambiguous hB.expr hB.first hB.ast hl hf' h4⟩

/-- **C102, decision.**  For a uniform LL(1) grammar the tables are built, and the parser accepts just the sentences, each with its one tree,
and refuses the rest as an invalid token. -/
theorem C102_decides (he : Expressible ps) (hf : ps.find? (fun p => p.isStart) = some start) (hg : Grammar.fromAst ps = .ok g)
    (hc : NoCollisions hash g (Lalr.depthOf g)) (hl : LL1 ps start.name) (hb : Begins ps start.name) (hu : Uniform (AstRule ps) start.name) :
    ∃ action got states, Lalr.makeTables hash g (Lalr.depthOf g) = .ok (action, got, states) ∧
      ∀ w ws rest fuel, 0 ∉ w → Numbers g w ws → (2 * w.length + 1) * (g.prods.length + 1) ≤ fuel →
        (Sentence (AstRule ps) start.name ws → ∃ f, IsTree g.prods start.name f ws ∧ (∀ f', IsTree g.prods start.name f' ws → f' = f) ∧
          Lalr.parseIdx g action got fuel (w ++ 0 :: rest) = .ok f.post) ∧
        (¬ Sentence (AstRule ps) start.name ws → Lalr.parseIdx g action got fuel (w ++ 0 :: rest) = .error .invalidToken) := by
  obtain ⟨⟨action, got, states⟩, h⟩ := C102_tables he hf hg hc hl hb
  exact ⟨action, got, states, h, fun w ws rest fuel h0 hn hfu => C100_decides ⟨he, hf, hg, h⟩ hc hu h0 hn hfu⟩

/-- **C102, simple grammars.**  Every simple grammar (C101) is LL(1). -/
theorem C102_simple (he : Expressible ps) (hs : Simple ps) (S : Str) : LL1 ps S := by
  refine hs.2.imp_of_mem ?_
  have key : ∀ {A r t}, (A, r) ∈ rulesOf ps → Starts (AstRule ps) r t → r.head? = some t := by
    intro A r t hr ht
    cases r with
    | nil => exact absurd (astRule_iff.2 hr) (rule_ne he A)
    | cons X r =>
      have := (starts_iff (rule_ne he)).1 ht
      cases this with
      | term => rfl
      | nt => exact absurd rfl (hs.1 _ _ hr _)
  rintro ⟨A, r⟩ ⟨B, r'⟩ hr hr' hxy hn - t ht ht'
  exact hxy hn ((key hr ht).trans (key hr' ht').symm)

end

/-! ## Samples -/

/-- What a symbol can begin with, by a table for the nonterminals. -/
def leads (L : List (Str × Sym)) : Sym → List Sym
  | .nonTerm A => (L.filter fun x => x.1 = A).map (·.2)
  | t => [t]

theorem leads_sound {ps : List Ast.Prod} {L : List (Str × Sym)}
    (h : ∀ x ∈ rulesOf ps, ∀ X ∈ x.2.head?, ∀ t ∈ leads L X, t ∈ leads L (.nonTerm x.1)) {X t : Sym} (hl : Lead (AstRule ps) X t) :
    t ∈ leads L X := by
  induction hl with
  | @term t hn =>
    cases t with
    | nonTerm A => exact absurd rfl (hn A)
    | _ => simp [leads]
  | nt hR _ ih => exact h _ (astRule_iff.1 hR) _ rfl _ ih

theorem ll1_of {ps : List Ast.Prod} (he : Expressible ps) (L : List (Str × Sym))
    (h : ∀ x ∈ rulesOf ps, ∀ X ∈ x.2.head?, ∀ t ∈ leads L X, t ∈ leads L (.nonTerm x.1))
    (h2 : (rulesOf ps).Pairwise fun x y => x.1 = y.1 → ∀ X ∈ x.2.head?, ∀ Y ∈ y.2.head?, ∀ t ∈ leads L X, t ∉ leads L Y) (S : Str) : LL1 ps S := by
  refine h2.imp_of_mem ?_
  rintro ⟨A, r⟩ ⟨B, r'⟩ hr hr' hxy hn - t ht ht'
  cases r with
  | nil => exact rule_ne he A (astRule_iff.2 hr)
  | cons X r =>
    cases r' with
    | nil => exact rule_ne he B (astRule_iff.2 hr')
    | cons Y r' =>
      exact hxy hn X rfl Y rfl t (leads_sound h ((starts_iff (rule_ne he)).1 ht)) (leads_sound h ((starts_iff (rule_ne he)).1 ht'))

theorem once_expressible : Expressible onceAst := expressibleB_sound (by decide +kernel)

def onceLeads : List (Str × Sym) :=
  [("S".toList, .strLit "x".toList), ("S".toList, .strLit "y".toList), ("B".toList, .strLit "b".toList), ("C".toList, .strLit "y".toList),
    ("D".toList, .strLit "d".toList)]

theorem once_ll1 : LL1 onceAst (startOf onceAst).name := ll1_of once_expressible onceLeads (by decide +kernel) (by decide +kernel) _

theorem starts_rule {R : Str → List Sym → Prop} {A : Str} {X : Sym} {r : List Sym} (h : R A (X :: r)) (hX : ∀ B, X ≠ .nonTerm B) :
    ∃ t, Starts R [.nonTerm A] t := ⟨X, (Lead.nt h (.term hX)).starts []⟩

theorem once_begins : Begins onceAst (startOf onceAst).name := by
  have hrule : ∀ x ∈ rulesOf onceAst, AstRule onceAst x.1 x.2 := fun x hx => astRule_iff.2 hx
  have hS : ∀ B, (∃ x ∈ rulesOf onceAst, x.1 = B ∧ (x.2.head?.any fun X => !isNon X) = true) → ∃ t, Starts (AstRule onceAst) [.nonTerm B] t := by
    rintro B ⟨⟨A, r⟩, hx, rfl, hh⟩
    cases r with
    | nil => simp at hh
    | cons X r =>
      refine starts_rule (hrule _ hx) ?_
      rintro C rfl
      simp [isNon] at hh
  intro B hu
  have hall : ∀ x ∈ rulesOf onceAst, ∀ X ∈ x.2, isNon X = true →
      ∃ y ∈ rulesOf onceAst, Sym.nonTerm y.1 = X ∧ (y.2.head?.any fun X => !isNon X) = true := by decide +kernel
  cases hu with
  | refl => exact hS _ (by decide +kernel)
  | tail _ hr hB =>
    obtain ⟨y, h1, h2, h3⟩ := hall _ (astRule_iff.1 hr) _ hB rfl
    exact hS B ⟨y, h1, Sym.nonTerm.inj h2, h3⟩

-- C102_no_left_recursion, C102_tables, C102_builds, C102_terminates, C102_decides: the hypotheses, of a grammar that is not simple.
example : Expressible onceAst ∧ onceAst.find? (fun p => p.isStart) = some (startOf onceAst) ∧ Grammar.fromAst onceAst = .ok (lower onceAst) ∧
    NoCollisions id (lower onceAst) (Lalr.depthOf (lower onceAst)) ∧ LL1 onceAst (startOf onceAst).name ∧ Begins onceAst (startOf onceAst).name ∧
    Uniform (AstRule onceAst) (startOf onceAst).name ∧ ¬ Simple onceAst := by
  refine ⟨once_built.expr, once_built.first, once_built.ast, noCollisions_id _ _, once_ll1, once_begins, C100_once once_once, fun h => ?_⟩
  have : ("S".toList, [Sym.nonTerm "C".toList]) ∈ rulesOf onceAst := by decide +kernel
  exact h.1 _ _ this _ rfl

theorem aside_used {A : Str} (hA : Uses (AstRule asideAst) (startOf asideAst).name A) : A = "S".toList ∨ A = "T".toList := by
  have hnext : ∀ x ∈ rulesOf asideAst, (x.1 = "S".toList ∨ x.1 = "T".toList) → ∀ X ∈ x.2,
      X = .nonTerm "T".toList ∨ X = .strLit "x".toList ∨ X = .strLit "y".toList := by decide +kernel
  generalize hS : (startOf asideAst).name = S at hA
  induction hA with
  | refl => exact .inl (hS.symm.trans (by decide +kernel))
  | tail _ hr hm ih =>
    rcases hnext _ (astRule_iff.1 hr) ih _ hm with h | h | h
    · exact .inr (Sym.nonTerm.inj h)
    · cases h
    · cases h

theorem aside_ll1 : LL1 asideAst (startOf asideAst).name := by
  have h : (rulesOf asideAst).Pairwise fun x y => x.1 = y.1 → x.1 ≠ "S".toList ∧ x.1 ≠ "T".toList := by decide +kernel
  refine h.imp fun hxy he hu => ?_
  rcases aside_used hu with k | k
  · exact absurd k (hxy he).1
  · exact absurd k (hxy he).2

theorem aside_begins : Begins asideAst (startOf asideAst).name := by
  have hR : ∀ x ∈ rulesOf asideAst, AstRule asideAst x.1 x.2 := fun x hx => astRule_iff.2 hx
  intro A hA
  rcases aside_used hA with rfl | rfl
  · exact starts_rule (hR ("S".toList, [.strLit "x".toList, .nonTerm "T".toList]) (by decide +kernel)) nofun
  · exact starts_rule (hR ("T".toList, [.strLit "y".toList]) (by decide +kernel)) nofun

-- The same hypotheses, of a grammar where rules that cannot be reached are left recursive.
example : LL1 asideAst (startOf asideAst).name ∧ Begins asideAst (startOf asideAst).name ∧ LeftRec (AstRule asideAst) "A".toList := by
  have hR : ∀ x ∈ rulesOf asideAst, AstRule asideAst x.1 x.2 := fun x hx => astRule_iff.2 hx
  exact ⟨aside_ll1, aside_begins, "B".toList, ⟨[], hR ("A".toList, [.nonTerm "B".toList]) (by decide +kernel)⟩,
    .head ⟨[], hR ("B".toList, [.nonTerm "A".toList]) (by decide +kernel)⟩ .refl⟩

-- C102_simple: a simple grammar of three nonterminals.
example : Expressible threeAst ∧ Simple threeAst := ⟨three_expressible, three_simple⟩

-- C102_unambiguous, C102_output: a parse of six tokens.
example : LL1 onceAst (startOf onceAst).name ∧ Lalr.parseIdx (lower onceAst) (tablesOf (lower onceAst)).1 (tablesOf (lower onceAst)).2.1 40 ([5, 1, 3, 3, 2, 4] ++ [0]) =
    .ok [5, 3, 1] := ⟨once_ll1, ok_of (by decide +kernel)⟩

end Verif.Props
