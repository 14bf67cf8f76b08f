import Verif.Proofs.ShowOk
import Verif.Props.FrontEnd

/-! # Properties of printed items (C79, C80) -/

namespace Verif.Props
open Verif Spec FrontEnd

/-- The characters of a string literal. -/
local macro "chars!" s:str : term => do
  let cs := s.getString.toList.map fun c => Lean.Syntax.mkCharLit c
  `([$(cs.toArray),*])

/-- The grammar of the test in src/lalr/item.rs:448-457. -/
def cdText : Str :=
  chars! "\n            export start S: () = [ \n                <c1: C> <c2: C> => (\"nothing to see here\")\n            ]\n\n            export C: () = [\n                \"c\" <c: C> => (\"OK\"),\n                \"d\" => (\"noob\")\n            ]\n        "

/-- The grammar that a text is read as. -/
def grammarOf (text : Str) : Grammar :=
  ((parseGrammar text).toOption.bind fun ps => (Grammar.fromAst ps).toOption).getD ⟨[], [], [], []⟩

/-! ## C79 -/

/-- C79.  A production is printed as its name, an arrow and its symbols with single spaces in between. -/
theorem C79_production (p : Production) :
    ∃ w, Spelled p.inputs w ∧ Show.production p = p.name ++ " ⇒  ".toList ++ w :=
  ⟨_, (Show.spelled_iff _ _).2 rfl, Show.production_eq p⟩

/-- C79.  An item is printed as its production with one dot, before the symbol that comes next or after the last one. -/
theorem C79_item {g : Grammar} {i d : Nat} {p : Production} (hp : g.prods[i]? = some p) (hd : d ≤ p.inputs.length) (w : Str) :
    Show.item g (i, d) = p.name ++ " ⇒  ".toList ++ w ↔ Dotted p.inputs d w := by
  obtain ⟨v, hv, he⟩ := Show.dotted_item (it := (i, d)) hp hd
  constructor
  · intro h
    have : v = w := List.append_cancel_left (he.symm.trans h)
    exact this ▸ hv
  · intro h
    have : v = w := by
      rcases Show.dotted_eq hv with ⟨h1, rfl⟩ | ⟨h1, rfl⟩ <;> rcases Show.dotted_eq h with ⟨h2, rfl⟩ | ⟨h2, rfl⟩ <;> first | rfl | (simp only at h1; omega)
    exact this ▸ he

/-- C79.  An item whose dot is further to the right is printed without a dot. -/
theorem C79_beyond {g : Grammar} {i d : Nat} {p : Production} (hp : g.prods[i]? = some p) (hd : p.inputs.length < d) :
    Show.item g (i, d) = Show.production p := (Show.item_eq (it := (i, d)) hp).2.2 hd

/-- C79.  A lookahead is printed with its kind and, when nothing in it needs a backslash, with its text between quotes. -/
theorem C79_token {g : Grammar} {t : Nat} {s : Sym} (hs : g.tokens[t]? = some s)
    (hq : ∀ w, s = .strLit w ∨ s = .regex w ∨ s = .nonTerm w → ∀ c ∈ w, c ≠ '"' ∧ c ≠ '\\' ∧ c ≠ '\n') :
    (∀ w, s = .strLit w → Show.token g t = "StrLit(\"".toList ++ w ++ "\")".toList) ∧
      (∀ w, s = .regex w → Show.token g t = "Regex(\"".toList ++ w ++ "\")".toList) ∧
      (∀ w, s = .nonTerm w → Show.token g t = "NonTerminal(Ident(\"".toList ++ w ++ "\"))".toList) ∧
      (s = .eof → Show.token g t = "Eof".toList) ∧ (s = .epsilon → Show.token g t = "Epsilon".toList) := by
  have ht : Show.token g t = Show.symbol s := by rw [Show.token, Grammar.getToken, hs]
  have hk : ∀ w : Str, (∀ c ∈ w, c ≠ '"' ∧ c ≠ '\\' ∧ c ≠ '\n') → Show.quoted w = ['"'] ++ w ++ ['"'] := by
    intro w hw
    rw [Show.quoted]
    congr 2
    induction w with
    | nil => rfl
    | cons c w ih =>
        obtain ⟨h1, h2, h3⟩ := hw c (by simp)
        rw [List.flatMap_cons, ih (fun x hx => hw x (List.mem_cons_of_mem _ hx)), if_neg h1, if_neg h2, if_neg h3]
        rfl
  rw [ht]
  refine ⟨?_, ?_, ?_, ?_, ?_⟩
  · rintro w rfl
    have e := hk w (hq w (by simp))
    have e1 : "StrLit(\"".toList = "StrLit(".toList ++ ['"'] := by decide
    have e2 : "\")".toList = ['"'] ++ [')'] := by decide
    unfold Show.symbol
    dsimp only
    rw [e, e1, e2]
    simp only [List.append_assoc]
  · rintro w rfl
    have e := hk w (hq w (by simp))
    have e1 : "Regex(\"".toList = "Regex(".toList ++ ['"'] := by decide
    have e2 : "\")".toList = ['"'] ++ [')'] := by decide
    unfold Show.symbol
    dsimp only
    rw [e, e1, e2]
    simp only [List.append_assoc]
  · rintro w rfl
    have e := hk w (hq w (by simp))
    have e1 : "NonTerminal(Ident(\"".toList = "NonTerminal(Ident(".toList ++ ['"'] := by decide
    have e2 : "\"))".toList = ['"'] ++ "))".toList := by decide
    unfold Show.symbol
    dsimp only
    rw [e, e1, e2]
    simp only [List.append_assoc]
  · rintro rfl; rfl
  · rintro rfl; rfl

/-- C79.  An item of a production that does not exist, and a token that does not exist, are printed as their numbers. -/
theorem C79_missing (g : Grammar) :
    (∀ i d, g.prods.length ≤ i → Show.item g (i, d) =
      "Item(ProductionIdx(".toList ++ i.repr.toList ++ "), ".toList ++ d.repr.toList ++ ")".toList) ∧
    ∀ t, g.tokens.length ≤ t → Show.token g t = "TokenIdx(".toList ++ t.repr.toList ++ ")".toList := by
  refine ⟨fun i d h => ?_, fun t h => ?_⟩
  · simp only [Show.item, List.getElem?_eq_none h, Show.digits_eq]
    congr 1
  · simp only [Show.token, Grammar.getToken, List.getElem?_eq_none h, Show.digits_eq]
    congr 1

set_option maxRecDepth 20000 in
example : Show.item (grammarOf cdText) (12, 3) = "Item(ProductionIdx(12), 3)".toList ∧
    Show.token (grammarOf cdText) 10 = "TokenIdx(10)".toList := by
  have h1 : (grammarOf cdText).prods.length ≤ 12 := by decide +kernel
  have h2 : (grammarOf cdText).tokens.length ≤ 10 := by decide +kernel
  rw [(C79_missing _).1 _ _ h1, (C79_missing _).2 _ h2]
  decide +kernel

/-- C79.  A set of items is printed line by line, when no text of a grammar goes over several lines. -/
theorem C79_set (g : Grammar) (s : ItemSet)
    (hn : ∀ e ∈ s, ∀ p, g.prods[e.1.1]? = some p → '\n' ∉ p.name ∧ ∀ t ∈ p.inputs, ∀ w, Shows t w → '\n' ∉ w) :
    Show.itemSet g s ++ ['\n'] =
      (setLines (s.map fun e => (Show.item g e.1, e.2.map (Show.token g)))).flatMap (fun l => l ++ ['\n']) :=
  Show.itemSet_nl g s fun e he => Show.item_nl fun p hp =>
    ⟨(hn e he p hp).1, fun t ht => (hn e he p hp).2 t ht _ (Show.shows_display t)⟩

-- C79: the second item of the closure of that test, its lookahead, and an item whose dot is at the end.
set_option maxRecDepth 20000 in
example : ∃ p, (grammarOf cdText).prods[1]? = some p ∧ 0 ≤ p.inputs.length ∧ p.inputs.length < 3 ∧
    Dotted p.inputs 1 "C ⋅C".toList ∧ Show.item (grammarOf cdText) (1, 2) = "S ⇒  C C⋅".toList ∧
    Show.token (grammarOf cdText) 1 = "StrLit(\"c\")".toList := by
  have h1 : ((grammarOf cdText).prods[1]?.map fun p => (p.name, p.inputs)) = some (['S'], [.nonTerm ['C'], .nonTerm ['C']]) := by
    decide +kernel
  obtain ⟨p, hp, hq⟩ := Option.map_eq_some_iff.1 h1
  have hi : p.inputs = [.nonTerm ['C'], .nonTerm ['C']] := congrArg Prod.snd hq
  refine ⟨p, hp, Nat.zero_le _, by simp [hi], (C79_item hp (by simp [hi]) _).1 ?_, by decide +kernel, by decide +kernel⟩
  have hn : p.name = ['S'] := congrArg Prod.fst hq
  rw [hn]
  decide +kernel

-- C79_set: its condition holds of the set of that test, and the text is the one expected there.
set_option maxRecDepth 20000 in
example : (∀ e ∈ [(((0, 0) : Item), [0]), ((1, 0), [0]), ((2, 0), [1, 2]), ((3, 0), [1, 2])], ∀ p,
      (grammarOf cdText).prods[e.1.1]? = some p → '\n' ∉ p.name ∧ ∀ t ∈ p.inputs, ∀ w, Shows t w → '\n' ∉ w) ∧
    Show.itemSet (grammarOf cdText) [((0, 0), [0]), ((1, 0), [0]), ((2, 0), [1, 2]), ((3, 0), [1, 2])] = chars! "{
    Item {
        item: S' ⇒  ⋅S,
        lookahead_tokens: {
            Eof,
        },
    },
    Item {
        item: S ⇒  ⋅C C,
        lookahead_tokens: {
            Eof,
        },
    },
    Item {
        item: C ⇒  ⋅c C,
        lookahead_tokens: {
            StrLit(\"c\"),
            StrLit(\"d\"),
        },
    },
    Item {
        item: C ⇒  ⋅d,
        lookahead_tokens: {
            StrLit(\"c\"),
            StrLit(\"d\"),
        },
    },
}" := by
  refine ⟨fun e _ p hp => ?_, by decide +kernel⟩
  have h : ∀ p ∈ (grammarOf cdText).prods, '\n' ∉ p.name ∧ ∀ t ∈ p.inputs, '\n' ∉ Show.display t := by decide +kernel
  obtain ⟨h1, h2⟩ := h p (List.mem_of_getElem? hp)
  exact ⟨h1, fun t ht w hw => Show.shows_eq hw ▸ h2 t ht⟩

/-! ## C80 -/

/-- C80 in part: two items of one production are printed differently, unless the last symbol is printed as
nothing.  Missing: items of different productions, and symbols with a dot in them (`C80_false`). -/
theorem C80_dot_partial {g : Grammar} {i d e : Nat} {p : Production} (hp : g.prods[i]? = some p)
    (hdot : ∀ t ∈ p.inputs, ∀ w, Shows t w → '⋅' ∉ w) (hd : d < e) (he : e ≤ p.inputs.length) :
    Show.item g (i, d) = Show.item g (i, e) ↔ d + 1 = p.inputs.length ∧ ∃ t, p.inputs.getLast? = some t ∧ Shows t [] := by
  rw [Show.item_dots hp (fun t ht => hdot t ht _ (Show.shows_display t)) hd he]
  constructor
  · rintro ⟨h, t, h1, h2⟩
    exact ⟨h, t, h1, h2 ▸ Show.shows_display t⟩
  · rintro ⟨h, t, h1, h2⟩
    exact ⟨h, t, h1, (Show.shows_eq h2).symm⟩

/-- C80 for the items of one production, exactly: two of them are printed alike just when they are the last two and the last
symbol is printed as nothing but dots. -/
theorem C80_exact {g : Grammar} {i d e : Nat} {p : Production} (hp : g.prods[i]? = some p) (hd : d < e)
    (he : e ≤ p.inputs.length) :
    Show.item g (i, d) = Show.item g (i, e) ↔
      d + 1 = p.inputs.length ∧ ∃ t w, p.inputs.getLast? = some t ∧ Shows t w ∧ ∀ c ∈ w, c = '⋅' := by
  rw [Show.item_alike hp hd he]
  constructor
  · rintro ⟨h, t, h1, h2⟩
    exact ⟨h, t, _, h1, Show.shows_display t, h2⟩
  · rintro ⟨h, t, w, h1, h2, h3⟩
    exact ⟨h, t, h1, Show.shows_eq h2 ▸ h3⟩

/-- C80 in part, for the items of any two productions whose symbols have texts without blanks and dots: they are printed
alike just when the productions are printed alike and the dot is at the same place.  Missing: other texts. -/
theorem C80_across_partial {g : Grammar} {i j d e : Nat} {p q : Production} (hp : g.prods[i]? = some p)
    (hq : g.prods[j]? = some q) (hn : ' ' ∉ p.name ∧ ' ' ∉ q.name)
    (ht : ∀ t ∈ p.inputs ++ q.inputs, ∀ w, Shows t w → w ≠ [] ∧ ' ' ∉ w ∧ '⋅' ∉ w)
    (hd : d ≤ p.inputs.length) (he : e ≤ q.inputs.length) :
    Show.item g (i, d) = Show.item g (j, e) ↔
      p.name = q.name ∧ (∃ ws, List.Forall₂ Shows p.inputs ws ∧ List.Forall₂ Shows q.inputs ws) ∧ d = e := by
  rw [Show.item_across hp hq hn.1 hn.2 (fun t h => ht t (by simp [h]) _ (Show.shows_display t))
    (fun t h => ht t (by simp [h]) _ (Show.shows_display t)) hd he]
  have : (∃ ws, List.Forall₂ Shows p.inputs ws ∧ List.Forall₂ Shows q.inputs ws) ↔
      p.inputs.map Show.display = q.inputs.map Show.display :=
    ⟨fun ⟨ws, h1, h2⟩ => by rw [← Show.shows_map_eq h1, ← Show.shows_map_eq h2],
      fun h => ⟨_, Show.shows_map _, h ▸ Show.shows_map _⟩⟩
  rw [this]

/-- A literal and a nonterminal of the same name, an empty literal, and a literal with a dot in it. -/
def alikeText : Str :=
  chars! "export start S: ()\n = [ \"C\" => (0),\n <c: C> => (1),\n \"\" => (2),\n \"⋅\" => (3)\n ]\n C: ()\n = [ \"c\" => (0)\n ]"

set_option maxRecDepth 20000 in
theorem alike_items : (Show.item (grammarOf alikeText) (1, 0) = "S ⇒  ⋅C".toList ∧
      Show.item (grammarOf alikeText) (2, 0) = "S ⇒  ⋅C".toList) ∧
    (Show.item (grammarOf alikeText) (3, 0) = "S ⇒  ⋅".toList ∧ Show.item (grammarOf alikeText) (3, 1) = "S ⇒  ⋅".toList) ∧
    (Show.item (grammarOf alikeText) (4, 0) = "S ⇒  ⋅⋅".toList ∧ Show.item (grammarOf alikeText) (4, 1) = "S ⇒  ⋅⋅".toList) ∧
    ∀ i ∈ [1, 2, 3, 4], ∃ p, (grammarOf alikeText).prods[i]? = some p ∧ p.inputs.length = 1 := by
  have h : ∀ i ∈ [1, 2, 3, 4], ((grammarOf alikeText).prods[i]?.map fun p => p.inputs.length) = some 1 := by decide +kernel
  exact ⟨by decide +kernel, by decide +kernel, by decide +kernel, fun i hi => Option.map_eq_some_iff.1 (h i hi)⟩

/-- C80 is false: items of two productions are printed alike, as are items of one production. -/
theorem C80_false : ∃ text ps g, parseGrammar text = .ok ps ∧ Grammar.fromAst ps = .ok g ∧
    (Show.item g (1, 0) = "S ⇒  ⋅C".toList ∧ Show.item g (2, 0) = "S ⇒  ⋅C".toList) ∧
    (Show.item g (3, 0) = "S ⇒  ⋅".toList ∧ Show.item g (3, 1) = "S ⇒  ⋅".toList) ∧
    (Show.item g (4, 0) = "S ⇒  ⋅⋅".toList ∧ Show.item g (4, 1) = "S ⇒  ⋅⋅".toList) ∧
    ∀ i ∈ [1, 2, 3, 4], ∃ p, g.prods[i]? = some p ∧ p.inputs.length = 1 := by
  set_option maxRecDepth 20000 in
  have h1 : ((parseGrammar alikeText).toOption).isSome := by decide +kernel
  obtain ⟨ps, hps⟩ := Option.isSome_iff_exists.1 h1
  have hp : parseGrammar alikeText = .ok ps := by
    cases h : parseGrammar alikeText with
    | error e => rw [h] at hps; cases hps
    | ok x => rw [h] at hps; cases hps; rfl
  set_option maxRecDepth 20000 in
  have h2 : ((parseGrammar alikeText).toOption.bind fun ps => (Grammar.fromAst ps).toOption).isSome := by decide +kernel
  rw [hps] at h2
  obtain ⟨g, hg⟩ := Option.isSome_iff_exists.1 h2
  have hf : Grammar.fromAst ps = .ok g := by
    simp only [Option.bind_some] at hg
    cases h : Grammar.fromAst ps with
    | error e => rw [h] at hg; cases hg
    | ok x => rw [h] at hg; cases hg; rfl
  have he : g = grammarOf alikeText := by
    rw [grammarOf, hps, hg]; rfl
  refine ⟨alikeText, ps, g, hp, hf, ?_⟩
  rw [he]
  exact alike_items

-- C80_dot_partial: in the test grammar three places of the dot, all printed differently.
set_option maxRecDepth 20000 in
example : ∃ p, (grammarOf cdText).prods[1]? = some p ∧ (∀ t ∈ p.inputs, ∀ w, Shows t w → '⋅' ∉ w) ∧ 1 < 2 ∧ 2 ≤ p.inputs.length ∧
    Show.item (grammarOf cdText) (1, 1) ≠ Show.item (grammarOf cdText) (1, 2) := by
  have h1 : ((grammarOf cdText).prods[1]?.map fun p => p.inputs) = some [.nonTerm ['C'], .nonTerm ['C']] := by decide +kernel
  obtain ⟨p, hp, hq⟩ := Option.map_eq_some_iff.1 h1
  refine ⟨p, hp, fun t ht w hw => ?_, by omega, by simp [hq], by decide +kernel⟩
  rw [Show.shows_eq hw]
  have : ∀ t ∈ ([.nonTerm ['C'], .nonTerm ['C']] : List Sym), '⋅' ∉ Show.display t := by decide
  exact this t (hq ▸ ht)

-- C80_exact: a literal that is a dot, and the first two of three places.  C80_across_partial: two productions of the test grammar.
set_option maxRecDepth 20000 in
example : (∃ p, (grammarOf alikeText).prods[4]? = some p ∧ 1 ≤ p.inputs.length ∧
      ∃ t w, p.inputs.getLast? = some t ∧ Shows t w ∧ ∀ c ∈ w, c = '⋅') ∧
    ∃ p q, (grammarOf cdText).prods[2]? = some p ∧ (grammarOf cdText).prods[3]? = some q ∧ p.name = q.name ∧
      ' ' ∉ p.name ∧ (∀ t ∈ p.inputs ++ q.inputs, ∀ w, Shows t w → w ≠ [] ∧ ' ' ∉ w ∧ '⋅' ∉ w) ∧
      0 ≤ p.inputs.length ∧ 1 ≤ q.inputs.length := by
  have h4 : ((grammarOf alikeText).prods[4]?.map fun p => p.inputs) = some [.strLit ['⋅']] := by decide +kernel
  obtain ⟨p, hp, hi⟩ := Option.map_eq_some_iff.1 h4
  have h2 : ((grammarOf cdText).prods[2]?.map fun p => (p.name, p.inputs)) = some (['C'], [.strLit ['c'], .nonTerm ['C']]) := by
    decide +kernel
  have h3 : ((grammarOf cdText).prods[3]?.map fun p => (p.name, p.inputs)) = some (['C'], [.strLit ['d']]) := by decide +kernel
  obtain ⟨q, hq, hqi⟩ := Option.map_eq_some_iff.1 h2
  obtain ⟨r, hr, hri⟩ := Option.map_eq_some_iff.1 h3
  injection hqi with q1 q2
  injection hri with r1 r2
  refine ⟨⟨p, hp, by simp [hi], .strLit ['⋅'], ['⋅'], by simp [hi], .strLit _, by simp⟩, q, r, hq, hr, q1.trans r1.symm,
    by rw [q1]; decide, ?_, Nat.zero_le _, by simp [r2]⟩
  rw [q2, r2]
  intro t ht w hw
  rw [Show.shows_eq hw]
  have : ∀ t ∈ [Sym.strLit ['c'], .nonTerm ['C'], .strLit ['d']], Show.display t ≠ [] ∧ ' ' ∉ Show.display t ∧ '⋅' ∉ Show.display t := by
    decide
  exact this t ht

/-- C80 for lookaheads: different tokens are printed differently, whatever is in their texts. -/
theorem C80_tokens {g : Grammar} {t u : Nat} {a b : Sym} (ha : g.tokens[t]? = some a) (hb : g.tokens[u]? = some b)
    (h : Show.token g t = Show.token g u) : a = b := by
  simp only [Show.token, Grammar.getToken, ha, hb] at h
  exact Show.symbol_inj h

set_option maxRecDepth 20000 in
example : ∃ a b, (grammarOf cdText).tokens[1]? = some a ∧ (grammarOf cdText).tokens[2]? = some b ∧
    Show.token (grammarOf cdText) 1 ≠ Show.token (grammarOf cdText) 2 ∧
    Show.symbol (.strLit ['"', ')', '"']) ≠ Show.symbol (.strLit ['\\', '"', ')', '"']) :=
  ⟨.strLit ['c'], .strLit ['d'], by decide +kernel, by decide +kernel, by decide +kernel, by decide +kernel⟩

end Verif.Props
