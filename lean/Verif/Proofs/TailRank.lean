import Verif.Proofs.TailOk
import Verif.Model.TsProg

/-! # The rank of the declarations of the generated program -/

namespace Verif.MiniTs
open Verif.ParseGen (Cond Msg Param Act)

/-- The ranks of ts/util.ts. -/
def utilRanks : List (Str × Nat) :=
  [(name! "Err", 0), (name! "Negate", 0), (name! "Reverse", 0), (name! "ReverseImpl", 0), (name! "Tail", 0),
   (name! "IsWhitespace", 0), (name! "Substring", 2), (name! "SubstringImpl", 2), (name! "CutString", 2), (name! "Eq", 0),
   (name! "Succ", 1), (name! "Pred", 1), (name! "Gte", 2), (name! "Gt", 2), (name! "Lte", 3), (name! "Lt", 3),
   (name! "GtImpl", 2), (name! "Add", 2), (name! "Sub", 2), (name! "PopNStack", 2), (name! "PopNStackWithValue", 2),
   (name! "PopNStackWithValueImpl", 2)]

/-- The ranks of ts/lex.ts. -/
def lexRanks : List (Str × Nat) :=
  [(name! "CharRange", 0), (name! "SingleCharRange", 2), (name! "State", 1), (name! "TokenDef", 0), (name! "Token", 0),
   (name! "GetTokenDef", 1), (name! "GetTokenDefImpl", 1), (name! "TokenDefToToken", 3), (name! "RangeContains", 4),
   (name! "NextState", 5), (name! "StateAccepts", 0), (name! "StringToCharList", 1), (name! "LexImpl", 6), (name! "Lex", 7)]

/-- The ranks of ts/parse.ts. -/
def parseRanks : List (Str × Nat) :=
  [(name! "GetAction", 1), (name! "GetGoto", 1), (name! "NextToken", 4), (name! "TokenIndices", 2), (name! "TokenIndicesImpl", 1),
   (name! "ParseImplShift", 5), (name! "ParseImplReduce", 5), (name! "ParseImpl", 5), (name! "Parse", 5), (name! "tokens", 7),
   (name! "ast", 8)]

/-- The ranks of the module `type_defs`. -/
def defsRanks : List (Str × Nat) :=
  [(name! "Symbol", 1), (name! "Token", 0), (name! "Tokens", 0), (name! "Production", 1), (name! "Productions", 0), (name! "Action", 0),
   (name! "Goto", 0), (name! "TokenKindToIdx", 0)]

/-- The ranks of the module `actions`. -/
def actRanks (G : Gen) : List (Str × Nat) :=
  (name! "EmitProduction", 3) :: (G.parse.acts.map fun a => (actName a.idx, 3)) ++ G.parse.symbols.map fun k => (k, 0)

def qualifyR (p : Str) (l : List (Str × Nat)) : List (Str × Nat) := l.map fun d => (p ++ d.1, d.2)

/-- The ranks of the imports of the generated file other than the actions. -/
def importRanks : List (Str × Nat) :=
  qualifyR (name! "U.") utilRanks ++ qualifyR (name! "L.") lexRanks ++ qualifyR (name! "type_defs.") defsRanks

def genRanks (G : Gen) : List (Str × Nat) := importRanks ++ qualifyR (name! "actions.") (actRanks G)

def utilAll : List (Str × Nat) := utilRanks ++ [(name! "SuccTable", 0), (name! "PredTable", 0)]

def lexAll : List (Str × Nat) :=
  lexRanks ++ [(name! "Characters", 0), (name! "CharTable", 0), (name! "States", 0), (name! "Tokens", 0), (name! "DFAtoNFA", 0)] ++
    qualifyR (name! "U.") utilRanks

def ranks (G : Gen) : Mod → List (Str × Nat)
  | .util => utilAll
  | .lex => lexAll
  | .parse => parseRanks ++ genRanks G
  | .defs => defsRanks ++ genRanks G
  | .actions => actRanks G ++ genRanks G
  | _ => []

def rankOf (G : Gen) (m : Mod) (x : Str) : Nat := (mget x (ranks G m)).getD 0

/-- What is asked of a declaration of that rank. -/
structure Falls (G : Gen) (d : Def) (r : Nat) : Prop where
  inner : ∀ q ∈ d.body.inner, ∀ d', prog G d.mod q.2 = some d' → (q.1 = true → d'.params = []) → rankOf G d.mod q.2 < r
  tails : ∀ q ∈ d.body.tails, ∀ d', prog G d.mod q.2 = some d' → (q.1 = true → d'.params = []) → rankOf G d.mod q.2 ≤ r

/-- Declarations with their ranks. -/
inductive Pairs (R : Def → Nat → Prop) : List (Str × Def) → List (Str × Nat) → Prop
  | nil : Pairs R [] []
  | cons {d r l rs} : d.1 = r.1 ∧ R d.2 r.2 → Pairs R l rs → Pairs R (d :: l) (r :: rs)

variable {R : Def → Nat → Prop}

theorem Pairs.get {l : List (Str × Def)} {rs : List (Str × Nat)} (h : Pairs R l rs) {x : Str} {d : Def} (hx : mget x l = some d) :
    ∃ r, mget x rs = some r ∧ R d r := by
  induction h with
  | nil => simp [mget] at hx
  | @cons a b l rs hab _ ih =>
    obtain ⟨y, d'⟩ := a
    obtain ⟨z, r⟩ := b
    obtain ⟨h1, h2⟩ := hab
    simp only at h1 h2
    subst h1
    rw [mget] at hx ⊢
    by_cases he : x = y
    · rw [if_pos he] at hx ⊢
      cases hx
      exact ⟨r, rfl, h2⟩
    · rw [if_neg he] at hx ⊢
      exact ih hx

theorem Pairs.append {l l' : List (Str × Def)} {rs rs' : List (Str × Nat)} (h : Pairs R l rs) (h' : Pairs R l' rs') :
    Pairs R (l ++ l') (rs ++ rs') := by
  induction h with
  | nil => exact h'
  | cons hab _ ih => exact .cons hab ih

theorem Pairs.qualify {l : List (Str × Def)} {rs : List (Str × Nat)} (p : Str) (h : Pairs R l rs) :
    Pairs R (qualify p l) (qualifyR p rs) := by
  induction h with
  | nil => exact .nil
  | cons hab _ ih => exact .cons ⟨congrArg (p ++ ·) hab.1, hab.2⟩ ih

theorem Pairs.imp {R' : Def → Nat → Prop} {l : List (Str × Def)} {rs : List (Str × Nat)} (h : Pairs R l rs)
    (hi : ∀ d r, R d r → R' d r) : Pairs R' l rs := by
  induction h with
  | nil => exact .nil
  | cons hab _ ih => exact .cons ⟨hab.1, hi _ _ hab.2⟩ ih

theorem mget_append_some {ν : Type} {x : Str} {l l' : List (Str × ν)} {v : ν} (h : mget x (l ++ l') = some v) :
    mget x l = some v ∨ mget x l = none ∧ mget x l' = some v := by
  induction l with
  | nil => exact .inr ⟨rfl, h⟩
  | cons a l ih =>
    obtain ⟨y, u⟩ := a
    rw [List.cons_append, mget] at h
    rw [mget]
    by_cases he : x = y
    · rw [if_pos he] at h ⊢
      exact .inl h
    · rw [if_neg he] at h ⊢
      exact ih h

theorem mget_append_left {ν : Type} {x : Str} {l l' : List (Str × ν)} {v : ν} (h : mget x l = some v) : mget x (l ++ l') = some v := by
  induction l with
  | nil => simp [mget] at h
  | cons a l ih =>
    obtain ⟨y, u⟩ := a
    rw [mget] at h
    rw [List.cons_append, mget]
    by_cases he : x = y
    · rw [if_pos he] at h ⊢
      exact h
    · rw [if_neg he] at h ⊢
      exact ih h

theorem mget_append_right {ν : Type} {x : Str} {l l' : List (Str × ν)} (h : mget x l = none) : mget x (l ++ l') = mget x l' := by
  induction l with
  | nil => rfl
  | cons a l ih =>
    obtain ⟨y, u⟩ := a
    rw [mget] at h
    rw [List.cons_append, mget]
    by_cases he : x = y
    · rw [if_pos he] at h; cases h
    · rw [if_neg he] at h ⊢
      exact ih h

theorem mget_key {ν : Type} {x : Str} {l : List (Str × ν)} {v : ν} (h : mget x l = some v) : (x, v) ∈ l := by
  induction l with
  | nil => simp [mget] at h
  | cons a l ih =>
    obtain ⟨y, u⟩ := a
    rw [mget] at h
    by_cases he : x = y
    · rw [if_pos he] at h
      cases h
      rw [he]
      exact List.mem_cons_self ..
    · rw [if_neg he] at h
      exact List.mem_cons_of_mem _ (ih h)

/-- Declarations without parameters have a small rank. -/
def Small (d : Def) (r : Nat) : Prop := d.params = [] → r ≤ 1

/-- The Boolean test for a body that mentions only `ok` names, against a list of ranks. -/
def checkBody (ok : Str → Bool) (rs : List (Str × Nat)) (e : Exp) (r : Nat) : Bool :=
  (e.inner.all fun q => ok q.2 && match mget q.2 rs with | some s => decide (s < r) | none => true) &&
  (e.tails.all fun q => ok q.2 && match mget q.2 rs with | some s => decide (s ≤ r) | none => true)

def checkAll (ok : Str → Bool) (rs : List (Str × Nat)) : List (Str × List Str × Exp) → List (Str × Nat) → Bool
  | [], [] => true
  | d :: ds, r :: qs => decide (d.1 = r.1) && checkBody ok rs d.2.2 r.2 && checkAll ok rs ds qs
  | _, _ => false

def checkSmall : List (Str × List Str × Exp) → List (Str × Nat) → Bool
  | [], [] => true
  | d :: ds, r :: qs => decide (d.1 = r.1) && (!d.2.1.isEmpty || decide (r.2 ≤ 1)) && checkSmall ds qs
  | _, _ => false

theorem pairs_check {G : Gen} {m : Mod} {ok : Str → Bool} {rs : List (Str × Nat)}
    (hkeys : ∀ x d, ok x = true → prog G m x = some d → ∃ r, mget x rs = some r)
    (hrank : ∀ x r, mget x rs = some r → rankOf G m x = r) :
    ∀ (ds : List (Str × List Str × Exp)) (qs : List (Str × Nat)), checkAll ok rs ds qs = true → Pairs (Falls G) (declare m ds) qs
  | [], [], _ => .nil
  | [], _ :: _, h => by simp [checkAll] at h
  | _ :: _, [], h => by simp [checkAll] at h
  | d :: ds, r :: qs, h => by
    simp only [checkAll, checkBody, Bool.and_eq_true, decide_eq_true_eq, List.all_eq_true] at h
    obtain ⟨⟨h1, h2, h3⟩, h5⟩ := h
    refine .cons ⟨h1, ?_, ?_⟩ (pairs_check hkeys hrank ds qs h5)
    · intro q hq d' hd' _
      obtain ⟨h6, h7⟩ := h2 q hq
      obtain ⟨s, hs⟩ := hkeys _ _ h6 hd'
      rw [hs] at h7
      rw [hrank _ _ hs]
      simpa using h7
    · intro q hq d' hd' _
      obtain ⟨h6, h7⟩ := h3 q hq
      obtain ⟨s, hs⟩ := hkeys _ _ h6 hd'
      rw [hs] at h7
      rw [hrank _ _ hs]
      simpa using h7

theorem pairs_small {m : Mod} : ∀ (ds : List (Str × List Str × Exp)) (qs : List (Str × Nat)), checkSmall ds qs = true →
    Pairs Small (declare m ds) qs
  | [], [], _ => .nil
  | [], _ :: _, h => by simp [checkSmall] at h
  | _ :: _, [], h => by simp [checkSmall] at h
  | d :: ds, r :: qs, h => by
    simp only [checkSmall, Bool.and_eq_true, decide_eq_true_eq] at h
    refine .cons ⟨h.1.1, fun hp => ?_⟩ (pairs_small ds qs h.2)
    have hp' : d.2.1 = [] := hp
    simpa [hp'] using h.1.2

theorem pairs_keys {l : List (Str × Def)} {rs : List (Str × Nat)} (h : l.map (·.1) = rs.map (·.1)) : Pairs (fun _ _ => True) l rs := by
  induction l generalizing rs with
  | nil => cases rs with
    | nil => exact .nil
    | cons _ _ => simp at h
  | cons a l ih => cases rs with
    | nil => simp at h
    | cons b rs =>
      simp only [List.map_cons, List.cons.injEq] at h
      exact .cons ⟨h.1, trivial⟩ (ih h.2)

theorem good_table {G : Gen} {x : Str} {t : Ty} {r : Nat} : Falls G (table x t).2 r :=
  ⟨fun q hq => by simp [table, Exp.inner, Exp.refs] at hq, fun q hq => by simp [table, Exp.tails] at hq⟩

section
variable (G : Gen)

theorem util_pairs : Pairs (Falls G) (declare .util utilDecls) utilRanks := by
  refine pairs_check (ok := fun _ => true) (rs := utilAll) ?_ (fun x r h => by rw [rankOf, ranks, h]; rfl) _ _ (by decide +kernel)
  intro x d _ hd
  obtain ⟨r, hr, _⟩ := (pairs_keys (rs := utilAll) (by rfl)).get (show mget x (utilScope G) = some d from hd)
  exact ⟨r, hr⟩

theorem util_small : Pairs Small (declare .util utilDecls) utilRanks := pairs_small _ _ (by decide +kernel)

theorem lex_pairs : Pairs (Falls G) (declare .lex lexDecls) lexRanks := by
  refine pairs_check (ok := fun _ => true) (rs := lexAll) ?_ (fun x r h => by rw [rankOf, ranks, h]; rfl) _ _ (by decide +kernel)
  intro x d _ hd
  obtain ⟨r, hr, _⟩ := (pairs_keys (rs := lexAll) (by rfl)).get (show mget x (lexScope G) = some d from hd)
  exact ⟨r, hr⟩

theorem lex_small : Pairs Small (declare .lex lexDecls) lexRanks := pairs_small _ _ (by decide +kernel)

theorem actions_keys : Pairs (fun _ _ => True) (actionsNames G) (actRanks G) := by
  refine pairs_keys ?_
  simp [actionsNames, actRanks, table, Function.comp_def]

theorem gen_keys : Pairs (fun _ _ => True) (genScope G) (genRanks G) := by
  unfold genScope genRanks importRanks
  refine ((Pairs.qualify _ ?_).append (Pairs.qualify _ ?_)).append (Pairs.qualify _ ?_) |>.append (Pairs.qualify _ (actions_keys G))
  · exact (util_pairs G).imp fun _ _ _ => trivial
  · exact (lex_pairs G).imp fun _ _ _ => trivial
  · exact pairs_keys rfl

theorem keys {m : Mod} {x : Str} {d : Def} (hd : prog G m x = some d) : ∃ r, mget x (ranks G m) = some r := by
  cases m with
  | util =>
    obtain ⟨r, hr, _⟩ := (pairs_keys (rs := utilAll) (by rfl)).get (show mget x (utilScope G) = some d from hd)
    exact ⟨r, hr⟩
  | lex =>
    obtain ⟨r, hr, _⟩ := (pairs_keys (rs := lexAll) (by rfl)).get (show mget x (lexScope G) = some d from hd)
    exact ⟨r, hr⟩
  | parse =>
    obtain ⟨r, hr, _⟩ := ((pairs_keys (l := declare .parse parseDecls) (rs := parseRanks) rfl).append (gen_keys G)).get hd
    exact ⟨r, hr⟩
  | defs =>
    obtain ⟨r, hr, _⟩ := ((pairs_keys (l := defsNames G) (rs := defsRanks) rfl).append (gen_keys G)).get hd
    exact ⟨r, hr⟩
  | actions =>
    obtain ⟨r, hr, _⟩ := ((actions_keys G).append (gen_keys G)).get hd
    exact ⟨r, hr⟩
  | _ => cases hd

theorem rank_le_of {m : Mod} {x : Str} {d : Def} {b : Nat} (hd : prog G m x = some d)
    (h : ∀ r, mget x (ranks G m) = some r → r ≤ b) : rankOf G m x ≤ b := by
  obtain ⟨r, hr⟩ := keys G hd
  rw [rankOf, hr]
  exact h r hr

theorem actRanks_le {x : Str} {r : Nat} (h : mget x (actRanks G) = some r) : r ≤ 3 := by
  have := mget_key h
  simp only [actRanks, List.cons_append, List.mem_cons, List.mem_append, List.mem_map, Prod.mk.injEq] at this
  rcases this with h | ⟨a, _, h⟩ | ⟨a, _, h⟩ <;> omega

/-- An action has a name that begins so. -/
theorem actRanks_zero {x : Str} {r : Nat} (h : mget x (actRanks G) = some r) (hE : x.head? ≠ some 'E') (hA : x.head? ≠ some 'A') :
    r = 0 := by
  have := mget_key h
  simp only [actRanks, List.cons_append, List.mem_cons, List.mem_append, List.mem_map, Prod.mk.injEq] at this
  rcases this with h | ⟨a, _, h⟩ | ⟨a, _, h⟩
  · exact absurd (by rw [h.1]; rfl) hE
  · exact absurd (by rw [← h.1]; rfl) hA
  · exact h.2.symm

theorem mget_prefix_ne {ν : Type} {p x : Str} {l : List (Str × ν)} (h : ¬ p <+: x) :
    mget x (l.map fun d => (p ++ d.1, d.2)) = none := by
  cases hm : mget x (l.map fun d => (p ++ d.1, d.2)) with
  | none => rfl
  | some r =>
    have := mget_key hm
    simp only [List.mem_map, Prod.mk.injEq] at this
    obtain ⟨e, _, he, _⟩ := this
    exact absurd ⟨e.1, he⟩ h

theorem mget_prefix_eq {ν : Type} {p z : Str} {l : List (Str × ν)} :
    mget (p ++ z) (l.map fun d => (p ++ d.1, d.2)) = mget z l := by
  induction l with
  | nil => rfl
  | cons a l ih =>
    obtain ⟨y, r⟩ := a
    simp only [List.map_cons, mget, List.append_cancel_left_eq]
    by_cases h : z = y
    · simp [h]
    · simp only [if_neg h]; exact ih

/-- A name of the module `actions`, with its prefix. -/
theorem gen_actions {z : Str} : mget (name! "actions." ++ z) (genRanks G) = mget z (actRanks G) := by
  unfold genRanks importRanks qualifyR
  rw [mget_append_right, mget_prefix_eq]
  rw [mget_append_right, mget_prefix_ne (by simp)]
  rw [mget_append_right, mget_prefix_ne (by simp)]
  rw [mget_prefix_ne (by simp)]

theorem genScope_actions {z : Str} : mget (name! "actions." ++ z) (genScope G) = mget z (actionsNames G) := by
  unfold genScope qualify
  rw [mget_append_right, mget_prefix_eq]
  rw [mget_append_right, mget_prefix_ne (by simp)]
  rw [mget_append_right, mget_prefix_ne (by simp)]
  rw [mget_prefix_ne (by simp)]

/-- A declaration without parameters has a small rank outside ts/parse.ts. -/
theorem actions_small {x : Str} {d : Def} (hd : mget x (actionsNames G) = some d) (hp : d.params = []) :
    ∃ r, mget x (actRanks G) = some r ∧ r = 0 := by
  have : Pairs (fun d r => d.params = [] → r = 0) (actionsNames G) (actRanks G) := by
    unfold actionsNames actRanks
    refine Pairs.append (.cons ⟨rfl, by simp⟩ ?_) ?_
    · generalize G.parse.acts = as
      induction as with
      | nil => exact .nil
      | cons a as ih => exact .cons ⟨rfl, by simp⟩ ih
    · generalize G.parse.symbols = as
      induction as with
      | nil => exact .nil
      | cons a as ih => exact .cons ⟨rfl, fun _ => rfl⟩ ih
  obtain ⟨r, h1, h2⟩ := this.get hd
  exact ⟨r, h1, h2 hp⟩

theorem smalls : Pairs Small (defsNames G) defsRanks := by
  unfold defsNames defsRanks
  repeat (first | exact .nil | refine .cons ⟨rfl, fun _ => by simp⟩ ?_)

theorem act_smalls : Pairs Small (actionsNames G) (actRanks G) := by
  unfold actionsNames actRanks
  refine Pairs.append (.cons ⟨rfl, by simp [Small]⟩ ?_) ?_
  · generalize G.parse.acts = as
    induction as with
    | nil => exact .nil
    | cons a as ih => exact .cons ⟨rfl, by simp [Small]⟩ ih
  · generalize G.parse.symbols = as
    induction as with
    | nil => exact .nil
    | cons a as ih => exact .cons ⟨rfl, fun _ => by simp⟩ ih

theorem gen_smalls : Pairs Small (genScope G) (genRanks G) := by
  unfold genScope genRanks importRanks
  refine ((Pairs.qualify _ ?_).append (Pairs.qualify _ ?_)).append (Pairs.qualify _ (smalls G)) |>.append (Pairs.qualify _ (act_smalls G))
  · exact util_small
  · exact lex_small

theorem small_actions {x : Str} {d : Def} (hd : prog G .actions x = some d) (hp : d.params = []) : rankOf G .actions x ≤ 1 := by
  obtain ⟨r, h1, h2⟩ := ((act_smalls G).append (gen_smalls G)).get hd
  rw [rankOf, show mget x (ranks G .actions) = some r from h1]
  exact h2 hp

theorem rank_actions {z : Str} {d : Def} (hd : prog G .actions (name! "actions." ++ z) = some d) :
    rankOf G .actions (name! "actions." ++ z) ≤ 3 := by
  refine rank_le_of G hd fun r hr => ?_
  rcases mget_append_some hr with h | ⟨_, h⟩
  · exact actRanks_le G h
  · rw [gen_actions] at h
    exact actRanks_le G h

theorem rank_pop {d : Def} (hd : prog G .actions (name! "U.PopNStackWithValue") = some d) :
    rankOf G .actions (name! "U.PopNStackWithValue") ≤ 2 := by
  refine rank_le_of G hd fun r hr => ?_
  rcases mget_append_some hr with h | ⟨_, h⟩
  · rw [actRanks_zero G h (by decide) (by decide)]
    omega
  · have h' : some 2 = some r := h
    cases h'
    omega

theorem good_emit : Falls G ⟨.actions, [name! "prodIdx", name! "symbolStack"], emitExp G.parse.acts⟩ 3 := by
  have hi : ∀ as : List Act, ∀ q ∈ (emitExp as).inner, q.1 = true := by
    intro as
    induction as with
    | nil => simp [emitExp, Exp.inner, Exp.refs, Exps.refs]
    | cons a as ih =>
      intro q hq
      simp only [emitExp, Exp.inner, Exp.refs, Exps.refs, List.mem_append, List.mem_cons, List.append_nil, List.not_mem_nil,
        or_false, false_or] at hq
      rcases hq with h | h | h
      · rw [h]
      · rw [h]
      · exact ih q h
  have ht : ∀ as : List Act, ∀ q ∈ (emitExp as).tails, ∃ z, q.2 = name! "actions." ++ z := by
    intro as
    induction as with
    | nil => simp [emitExp, Exp.tails]
    | cons a as ih =>
      intro q hq
      simp only [emitExp, Exp.tails, List.mem_append, List.mem_singleton] at hq
      rcases hq with h | h
      · exact ⟨_, by rw [h]⟩
      · exact ih q h
  refine ⟨fun q hq d' hd' hp => ?_, fun q hq d' hd' _ => ?_⟩
  · have := small_actions G hd' (hp (hi _ q hq))
    dsimp only at this ⊢
    omega
  · obtain ⟨z, hz⟩ := ht _ q hq
    rw [hz] at hd' ⊢
    exact rank_actions G hd'

theorem refs_inferExps (xs : List Str) : (inferExps xs).refs = [] := by
  induction xs with
  | nil => rfl
  | cons x xs ih => simp [inferExps, Exps.refs, Exp.refs, ih]

theorem conds_inner {r : Exp} (hr : ∀ q ∈ r.inner, q.1 = true) (cs : List Cond) (ms : List Msg) :
    ∀ q ∈ (condsExp r cs ms).inner, q.1 = true := by
  induction cs generalizing ms with
  | nil => exact hr
  | cons c cs ih =>
    intro q hq
    cases c <;>
      simp only [condsExp, condExp, Exp.inner, Exp.refs, Exps.refs, List.mem_append, List.mem_cons, List.not_mem_nil, or_false,
        List.append_nil, List.nil_append] at hq <;>
      first
        | (rcases hq with h | h | h
           · rw [h]
           · rw [h]
           · exact ih _ q h)
        | (rcases hq with h | h
           · rw [h]
           · exact ih _ q h)

theorem conds_tails {r : Exp} (hr : r.tails = []) (cs : List Cond) (ms : List Msg) : (condsExp r cs ms).tails = [] := by
  induction cs generalizing ms with
  | nil => exact hr
  | cons c cs ih => simp [condsExp, Exp.tails, ih]

theorem good_act (a : Act) : Falls G ⟨.actions, [name! "symbolStack"], actExp a⟩ 3 := by
  have hi : ∀ q ∈ (actExp a).inner, q.1 = true ∨ q.2 = name! "U.PopNStackWithValue" := by
    intro q hq
    simp only [actExp, actWith, Exp.inner, Exp.refs, Exps.refs, refs_inferExps, List.mem_append, List.mem_cons, List.not_mem_nil,
      or_false, List.append_nil, List.nil_append] at hq
    rcases hq with (h | h) | h | h | h | h
    · exact .inr (by rw [h])
    · exact .inl (by rw [h])
    · exact .inl (by rw [h])
    · exact .inl (by rw [h])
    · exact .inl (by rw [h])
    · refine .inl (conds_inner ?_ _ _ q h)
      simp [callExp, callWith, Exp.inner, Exp.refs, Exps.refs]
  have ht : (actExp a).tails = [] := by
    simp only [actExp, actWith, Exp.tails, List.append_nil]
    exact conds_tails (by simp [callExp, callWith, Exp.tails]) _ _
  refine ⟨fun q hq d' hd' hp => ?_, fun q hq => ?_⟩
  · rcases hi q hq with h | h
    · have := small_actions G hd' (hp h)
      dsimp only at this ⊢
      omega
    · rw [h] at hd' ⊢
      have := rank_pop G hd'
      dsimp only at this ⊢
      omega
  · dsimp only at hq
    rw [ht] at hq
    cases hq

theorem actions_pairs : Pairs (Falls G) (actionsNames G) (actRanks G) := by
  unfold actionsNames actRanks
  refine Pairs.append (.cons ⟨rfl, good_emit G⟩ ?_) ?_
  · generalize G.parse.acts = as
    induction as with
    | nil => exact .nil
    | cons a as ih => exact .cons ⟨rfl, good_act G a⟩ ih
  · generalize G.parse.symbols = as
    induction as with
    | nil => exact .nil
    | cons a as ih => exact .cons ⟨rfl, good_table⟩ ih

theorem parse_pairs : Pairs (Falls G) (declare .parse parseDecls) parseRanks := by
  refine pairs_check (ok := fun x => !(name! "actions.").isPrefixOf x || decide (x = name! "actions.EmitProduction"))
    (rs := parseRanks ++ importRanks ++ [(name! "actions.EmitProduction", 3)]) ?_ ?_ _ _ (by decide +kernel)
  · intro x d hok hd
    obtain ⟨r, hr⟩ := keys G hd
    have hr' : mget x ((parseRanks ++ importRanks) ++ qualifyR (name! "actions.") (actRanks G)) = some r := by
      rw [List.append_assoc]; exact hr
    refine ⟨r, ?_⟩
    rcases mget_append_some hr' with h | ⟨h1, h2⟩
    · exact mget_append_left h
    · rw [mget_append_right h1]
      simp only [Bool.or_eq_true, Bool.not_eq_true', decide_eq_true_eq] at hok
      rcases hok with h | h
      · rw [qualifyR, mget_prefix_ne (fun hp => by rw [List.isPrefixOf_iff_prefix.mpr hp] at h; cases h)] at h2
        cases h2
      · subst h
        have : some 3 = some r := h2
        rw [← this]
        rfl
  · intro x r h
    have : mget x (parseRanks ++ (importRanks ++ qualifyR (name! "actions.") (actRanks G))) = some r := by
      rw [← List.append_assoc]
      rcases mget_append_some h with h | ⟨h1, h2⟩
      · exact mget_append_left h
      · rw [mget_append_right h1]
        have h3 := mget_key h2
        simp only [List.mem_singleton, Prod.mk.injEq] at h3
        rw [h3.1, h3.2]
        rfl
    rw [rankOf, show mget x (ranks G .parse) = some r from this]
    rfl

theorem symbolAlts_refs (ks : List Str) : ∀ q ∈ (symbolAlts ks).refs, q.1 = true ∧ ∃ z, q.2 = name! "actions." ++ z := by
  induction ks with
  | nil => simp [symbolAlts, Exps.refs]
  | cons k ks ih =>
    intro q hq
    simp only [symbolAlts, Exps.refs, Exp.refs, List.nil_append, List.append_nil, List.mem_append, List.mem_singleton] at hq
    rcases hq with h | h
    · rw [h]
      exact ⟨rfl, k, rfl⟩
    · exact ih q h

theorem good_symbol : Falls G ⟨.defs, [], symbolExp G.parse.symbols⟩ 1 := by
  refine ⟨fun q hq d' hd' hp => ?_, fun q hq => by simp [symbolExp, Exp.tails] at hq⟩
  simp only [symbolExp, Exp.inner, Exps.refs, Exp.refs, List.nil_append, List.append_nil, List.mem_append, List.mem_singleton] at hq
  rcases hq with h | h
  · rw [h]
    exact Nat.zero_lt_one
  · obtain ⟨h1, z, h2⟩ := symbolAlts_refs _ q h
    have hp' := hp h1
    obtain ⟨r, hr⟩ := keys G hd'
    rw [h2] at hd' hr ⊢
    dsimp only at hd' hr ⊢
    rw [rankOf, hr]
    have hno : mget (name! "actions." ++ z) defsRanks = none := by
      cases hm : mget (name! "actions." ++ z) defsRanks with
      | none => rfl
      | some r =>
        have := mget_key hm
        simp [defsRanks] at this
    have hr' : mget (name! "actions." ++ z) (genRanks G) = some r := by
      rcases mget_append_some hr with h | ⟨_, h⟩
      · rw [hno] at h; cases h
      · exact h
    rw [gen_actions] at hr'
    rcases (show mget (name! "actions." ++ z) (defsNames G ++ genScope G) = some d' from hd') |> mget_append_some with h | ⟨_, h⟩
    · obtain ⟨r'', h5, _⟩ := (smalls G).get h
      rw [hno] at h5; cases h5
    · rw [genScope_actions] at h
      obtain ⟨r'', h5, h6⟩ := actions_small G h hp'
      rw [hr'] at h5
      cases h5
      rw [h6]
      exact Nat.zero_lt_one

theorem defs_pairs : Pairs (Falls G) (defsNames G) defsRanks := by
  unfold defsNames defsRanks
  refine .cons ⟨rfl, good_symbol G⟩ (.cons ⟨rfl, ?_⟩ (.cons ⟨rfl, good_table⟩ (.cons ⟨rfl, ?_⟩ (.cons ⟨rfl, good_table⟩
    (.cons ⟨rfl, good_table⟩ (.cons ⟨rfl, good_table⟩ (.cons ⟨rfl, good_table⟩ .nil)))))))
  · exact ⟨fun q hq => by simp [tokenAlts, Exp.inner, Exp.refs, Exps.refs] at hq, fun q hq => by simp [tokenAlts, Exp.tails] at hq⟩
  · refine ⟨fun q hq d' _ _ => ?_, fun q hq => by simp [productionExp, Exp.tails] at hq⟩
    simp only [productionExp, Exp.inner, Exp.refs, Exps.refs, List.nil_append, List.append_nil, List.mem_singleton] at hq
    rw [hq]
    exact Nat.zero_lt_one

theorem gen_pairs : Pairs (Falls G) (genScope G) (genRanks G) := by
  unfold genScope genRanks importRanks
  exact (((util_pairs G).qualify _).append ((lex_pairs G).qualify _)).append ((defs_pairs G).qualify _) |>.append
    ((actions_pairs G).qualify _)

theorem all_pairs : ∀ {m : Mod} {x : Str} {d : Def}, prog G m x = some d → Falls G d (rankOf G m x) := by
  have key : ∀ {l : List (Str × Def)} {m : Mod} {x : Str} {d : Def}, Pairs (Falls G) l (ranks G m) → mget x l = some d →
      Falls G d (rankOf G m x) := by
    intro l m x d h hd
    obtain ⟨r, hr, hg⟩ := h.get hd
    rw [rankOf, hr]
    exact hg
  intro m x d hd
  cases m with
  | util =>
    refine key (m := .util) ?_ (show mget x (utilScope G) = some d from hd)
    exact (util_pairs G).append (.cons ⟨rfl, good_table⟩ (.cons ⟨rfl, good_table⟩ .nil))
  | lex =>
    refine key (m := .lex) ?_ (show mget x (lexScope G) = some d from hd)
    exact ((lex_pairs G).append (.cons ⟨rfl, good_table⟩ (.cons ⟨rfl, good_table⟩ (.cons ⟨rfl, good_table⟩
      (.cons ⟨rfl, good_table⟩ (.cons ⟨rfl, good_table⟩ .nil)))))).append ((util_pairs G).qualify _)
  | parse => exact key (m := .parse) ((parse_pairs G).append (gen_pairs G)) hd
  | defs => exact key (m := .defs) ((defs_pairs G).append (gen_pairs G)) hd
  | actions => exact key (m := .actions) ((actions_pairs G).append (gen_pairs G)) hd
  | _ => cases hd

theorem ranked : Ranked (prog G) (rankOf G) :=
  ⟨fun _ _ _ hd => (all_pairs G hd).inner, fun _ _ _ hd => (all_pairs G hd).tails⟩

theorem rankOf_le (m : Mod) (x : Str) : rankOf G m x ≤ 8 := by
  have h1 : ∀ e ∈ utilAll, e.2 ≤ 8 := by decide +kernel
  have h2 : ∀ e ∈ lexAll, e.2 ≤ 8 := by decide +kernel
  have h3 : ∀ e ∈ parseRanks ++ importRanks, e.2 ≤ 8 := by decide +kernel
  have h4 : ∀ e ∈ defsRanks, e.2 ≤ 8 := by decide +kernel
  rw [rankOf]
  cases hx : mget x (ranks G m) with
  | none => exact Nat.zero_le 8
  | some r =>
    have hg : mget x (genRanks G) = some r → r ≤ 8 := by
      intro h
      rcases mget_append_some h with h | ⟨_, h⟩
      · exact h3 _ (List.mem_append_right _ (mget_key h))
      · have := mget_key h
        simp only [qualifyR, List.mem_map, Prod.mk.injEq] at this
        obtain ⟨e, he, _, hr⟩ := this
        simp only [actRanks, List.cons_append, List.mem_cons, List.mem_append, List.mem_map] at he
        rw [← hr]
        rcases he with rfl | ⟨a, _, rfl⟩ | ⟨a, _, rfl⟩ <;> simp
    show r ≤ 8
    cases m with
    | util => exact h1 _ (mget_key hx)
    | lex => exact h2 _ (mget_key hx)
    | parse =>
      rcases mget_append_some hx with h | ⟨_, h⟩
      · exact h3 _ (List.mem_append_left _ (mget_key h))
      · exact hg h
    | defs =>
      rcases mget_append_some hx with h | ⟨_, h⟩
      · exact h4 _ (mget_key h)
      · exact hg h
    | actions =>
      rcases mget_append_some hx with h | ⟨_, h⟩
      · have := actRanks_le G h; omega
      · exact hg h
    | _ => simp [ranks, mget] at hx

end
end Verif.MiniTs
