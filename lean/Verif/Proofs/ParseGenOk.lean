import Verif.Spec.Eval
import Verif.Proofs.ParseOk
import Verif.Proofs.TsUtilOk

/-! The generated parser tables and actions. -/

namespace Verif.ParseGen
open Spec Grammar

/-- The parameter made from an input symbol. -/
def plain : Ast.InSym → Param
  | .strLit s => .strLit s
  | .nonTerm s => .nonTerm s
  | .regex s => .regex s
  | .named n ty => .named (n.getD []) (plain ty)
  | .epsilon => .strLit []
  | .eof => .strLit []

/-- As written in the grammar language. -/
def Written (s : Ast.InSym) : Prop :=
  s.lower ≠ .epsilon ∧ s.lower ≠ .eof ∧ ∀ n ty, s = .named n ty → n ≠ none ∧ ∀ m t, ty ≠ .named m t

theorem fromInput_ok {s : Ast.InSym} (h : Written s) : Param.fromInput s = .ok (some (plain s)) := by
  obtain ⟨h1, h2, h3⟩ := h
  cases s with
  | named n ty =>
    obtain ⟨h4, h5⟩ := h3 n ty rfl
    cases n with
    | none => exact absurd rfl h4
    | some n =>
      cases ty with
      | named m t => exact absurd rfl (h5 m t)
      | epsilon => exact absurd rfl h1
      | eof => exact absurd rfl h2
      | _ => rfl
  | epsilon => exact absurd rfl h1
  | eof => exact absurd rfl h2
  | _ => rfl

theorem paramsOf_ok : ∀ {ss : List Ast.InSym}, (∀ s ∈ ss, Written s) → paramsOf ss = .ok (ss.map plain)
  | [], _ => rfl
  | s :: ss, h => by
    simp only [paramsOf, fromInput_ok (h s (by simp)), paramsOf_ok (ss := ss) fun x hx => h x (List.mem_cons_of_mem s hx),
      bind, Except.bind, pure, Except.pure, List.map_cons]

/-- The action of a numbered body. -/
def actOf (i : Nat) (b : Str × Ast.Body) : Act := ⟨i, b.1, b.2.mapping, b.2.inputs.map plain⟩

theorem actsFrom_ok : ∀ {bs : List (Str × Ast.Body)} (i : Nat), (∀ b ∈ bs, ∀ s ∈ b.2.inputs, Written s) →
    ∃ as, actsFrom i bs = .ok as ∧ ∀ k b, bs[k]? = some b →
      as.find? (fun a => decide (a.idx = i + k)) = some (actOf (i + k) b)
  | [], i, _ => ⟨[], rfl, by simp⟩
  | b :: bs, i, h => by
    obtain ⟨as, h1, h2⟩ := actsFrom_ok (bs := bs) (i + 1) fun x hx => h x (List.mem_cons_of_mem b hx)
    refine ⟨actOf i b :: as, ?_, ?_⟩
    · simp only [actsFrom, paramsOf_ok (h b (by simp)), h1, bind, Except.bind, pure, Except.pure, actOf]
    · intro k b' hk
      cases k with
      | zero => simp at hk; subst hk; simp [actOf]
      | succ k =>
        rw [List.find?_cons_of_neg (by simp [actOf])]
        have := h2 k b' (by simpa using hk)
        rw [show i + 1 + k = i + (k + 1) from by omega] at this
        exact this

theorem prodTokens_ok {g : Grammar} (hg : GOk g) : ∀ {ss : List Sym}, (∀ s ∈ ss, s ∈ g.tokens) →
    ∃ l, prodTokens g ss = .ok l ∧ l.length = ss.length
  | [], _ => ⟨[], rfl, rfl⟩
  | s :: ss, h => by
    obtain ⟨l, h1, h2⟩ := prodTokens_ok hg fun x hx => h x (List.mem_cons_of_mem s hx)
    obtain ⟨k, hk⟩ := GOk.tokIdx_mem hg (h s (by simp))
    exact ⟨k :: l, by simp only [prodTokens, hk, h1, bind, Except.bind, pure, Except.pure], by simp [h2]⟩

theorem genProductions_ok {g : Grammar} (hg : GOk g) : ∀ {ps : List Production}, (∀ p ∈ ps, p ∈ g.prods) →
    ∃ l, genProductions g ps = .ok l ∧ ∀ (k : Nat) p, ps[k]? = some p →
      ∃ ts, l[k]? = some (p.name, ts) ∧ ts.length = p.inputs.length
  | [], _ => ⟨[], rfl, by simp⟩
  | p :: ps, h => by
    obtain ⟨l, h1, h2⟩ := genProductions_ok hg fun x hx => h x (List.mem_cons_of_mem p hx)
    obtain ⟨ts, h3, h4⟩ := prodTokens_ok hg (ss := p.inputs)
      fun s hs => (hg.tokMem s).mpr (.inr ⟨p, h p (by simp), hs⟩)
    refine ⟨(p.name, ts) :: l, by simp only [genProductions, h3, h1, bind, Except.bind, pure, Except.pure], ?_⟩
    intro k q hk
    cases k with
    | zero => simp at hk; subst hk; exact ⟨ts, by simp, h4⟩
    | succ k => simpa using h2 k q (by simpa using hk)

theorem written {ps : List Ast.Prod} (he : Expressible ps) (hn : WrittenNames ps) {p : Ast.Prod} (hp : p ∈ ps)
    {b : Ast.Body} (hb : b ∈ p.bodies) {s : Ast.InSym} (hs : s ∈ b.inputs) : Written s := by
  obtain ⟨h1, h2, _⟩ := ((he p hp).2 b hb).2 s hs
  exact ⟨h1, h2, fun n ty e => hn p hp b hb n ty (e ▸ hs)⟩

theorem mem_bodiesOf {ps : List Ast.Prod} {b : Str × Ast.Body} (h : b ∈ bodiesOf ps) :
    ∃ p ∈ ps, p.name = b.1 ∧ b.2 ∈ p.bodies := by
  simp only [bodiesOf, List.mem_flatMap, List.mem_map] at h
  obtain ⟨p, hp, b', hb, rfl⟩ := h
  exact ⟨p, hp, rfl, hb⟩

theorem bodiesOf_bodies (ps : List Ast.Prod) : (bodiesOf ps).map Prod.snd = ps.flatMap (·.bodies) := by
  simp only [bodiesOf, List.map_flatMap, List.map_map, Function.comp_def, List.map_id']

theorem bodiesOf_prods (ps : List Ast.Prod) :
    (bodiesOf ps).map (fun b => (b.1, b.2.inputs.map Ast.InSym.lower)) =
      (ps.flatMap fun p => p.bodies.map (fromAstBody p)).map (fun p => (p.name, p.inputs)) := by
  simp only [bodiesOf, List.map_flatMap, List.map_map, Function.comp_def, fromAstBody]

/-- What `call_impl_args` needs: no named parameter inside a named one. -/
theorem callImplArgs_ok {l : List Ast.InSym} (hw : ∀ s ∈ l, Written s) : ∃ t, callImplArgs (l.map plain) = .ok t := by
  induction l with
  | nil => exact ⟨_, rfl⟩
  | cons s l ih =>
    obtain ⟨t, ht⟩ := ih fun s hs => hw s (List.mem_cons_of_mem _ hs)
    have hs := hw s List.mem_cons_self
    cases s with
    | named n ty =>
      cases ty with
      | named m t => exact absurd rfl ((hs.2.2 n _ rfl).2 m t)
      | epsilon => exact absurd rfl hs.1
      | eof => exact absurd rfl hs.2.1
      | _ => exact ⟨_, by simp only [List.map_cons, plain, callImplArgs, ht, bind, Except.bind, pure, Except.pure]; rfl⟩
    | epsilon => exact absurd rfl hs.1
    | eof => exact absurd rfl hs.2.1
    | _ => exact ⟨t, ht⟩

theorem args_ok {bs : List (Str × Ast.Body)} (hw : ∀ b ∈ bs, ∀ s ∈ b.2.inputs, Written s) :
    ∀ {i : Nat} {as : List Act}, actsFrom i bs = .ok as → ∃ l, mapRes (fun a => callImplArgs a.inputs) as = .ok l := by
  induction bs with
  | nil => intro i as h; cases h; exact ⟨_, rfl⟩
  | cons b bs ih =>
    intro i as h
    simp only [actsFrom, paramsOf_ok (hw b List.mem_cons_self), bind, Except.bind, pure, Except.pure] at h
    cases h1 : actsFrom (i + 1) bs with
    | error e => rw [h1] at h; cases h
    | ok as' =>
      rw [h1] at h
      cases h
      obtain ⟨l, hl⟩ := ih (fun b hb => hw b (List.mem_cons_of_mem _ hb)) h1
      obtain ⟨t, ht⟩ := callImplArgs_ok (hw b List.mem_cons_self)
      exact ⟨t :: l, by simp only [mapRes, ht, hl, bind, Except.bind, pure, Except.pure]⟩

/-- The generated tables. -/
structure GenOk (ps : List Ast.Prod) (g : Grammar) (l : Lalr) (T : Tables) : Prop where
  symbols : T.symbols = ps.map (·.name)
  action : T.action = l.action
  goto : T.goto = l.goto
  kinds : T.kindToIdx = genKinds g
  prods : ∀ (k : Nat) p, g.prods[k]? = some p → ∃ ts, T.productions[k]? = some (p.name, ts) ∧ ts.length = p.inputs.length
  acts : ∀ k prod, k ≠ 0 → g.prods[k]? = some prod → ∃ p ∈ ps, ∃ b ∈ p.bodies, bodyOf ps k = some b ∧
    prod.name = p.name ∧ prod.inputs = b.inputs.map Ast.InSym.lower ∧
    T.acts.find? (fun a => decide (a.idx = k)) = some (actOf k (p.name, b))

/-- Conversely, tables are only written if names are as in the grammar language. -/
theorem fromInput_written {s : Ast.InSym} (h1 : s.lower ≠ .epsilon) (h2 : s.lower ≠ .eof) {p : Option Param}
    (h : Param.fromInput s = .ok p) : ∃ q, p = some q ∧ ((∃ n r, q = .named n r) ↔ ∃ n r, s = .named n r) := by
  induction s generalizing p with
  | strLit s => cases h; exact ⟨_, rfl, by simp⟩
  | nonTerm s => cases h; exact ⟨_, rfl, by simp⟩
  | regex s => cases h; exact ⟨_, rfl, by simp⟩
  | epsilon => exact absurd rfl h1
  | eof => exact absurd rfl h2
  | named n ty ih =>
    cases n with
    | none => cases h
    | some n =>
      simp only [Param.fromInput, bind, Except.bind, pure, Except.pure] at h
      cases hr : Param.fromInput ty with
      | error e => rw [hr] at h; cases h
      | ok r =>
        obtain ⟨q, rfl, _⟩ := ih h1 h2 hr
        rw [hr] at h; cases h
        exact ⟨_, rfl, by simp⟩

theorem callImplArgs_written {ss : List Ast.InSym} (hl : ∀ s ∈ ss, s.lower ≠ .epsilon ∧ s.lower ≠ .eof) :
    ∀ {ps : List Param} {t : Str}, paramsOf ss = .ok ps → callImplArgs ps = .ok t →
      ∀ n ty, Ast.InSym.named n ty ∈ ss → n ≠ none ∧ ∀ m t, ty ≠ .named m t := by
  induction ss with
  | nil => intro ps t _ _ n ty h; cases h
  | cons s ss ih =>
    intro ps t h1 h2 n ty hm
    simp only [paramsOf, bind, Except.bind, pure, Except.pure] at h1
    cases hp : Param.fromInput s with
    | error e => rw [hp] at h1; cases h1
    | ok p =>
      cases hps : paramsOf ss with
      | error e => rw [hp, hps] at h1; cases h1
      | ok ps' =>
        obtain ⟨hl1, hl2⟩ := hl s List.mem_cons_self
        obtain ⟨q, rfl, hq⟩ := fromInput_written hl1 hl2 hp
        rw [hp, hps] at h1; cases h1
        obtain ⟨t', ht⟩ : ∃ t, callImplArgs ps' = .ok t := by
          cases h3 : callImplArgs ps' with
          | ok t => exact ⟨t, rfl⟩
          | error e =>
            rcases q with ⟨n, _ | _ | _ | _⟩ | _ | _ | _ <;>
              simp only [callImplArgs, h3, bind, Except.bind] at h2 <;> cases h2
        rcases List.mem_cons.mp hm with rfl | hm
        · cases n with
          | none => cases hp
          | some n =>
            refine ⟨by simp, ?_⟩
            rintro m u rfl
            simp only [Param.fromInput, bind, Except.bind, pure, Except.pure] at hp
            cases hr : Param.fromInput (.named m u) with
            | error e => rw [hr] at hp; cases hp
            | ok r =>
              obtain ⟨q', rfl, hq'⟩ := fromInput_written (s := .named m u) hl1 hl2 hr
              obtain ⟨n', r', rfl⟩ := hq'.mpr ⟨_, _, rfl⟩
              rw [hr] at hp; cases hp
              cases h2
        · exact ih (fun s hs => hl s (List.mem_cons_of_mem _ hs)) hps ht n ty hm

theorem args_written {bs : List (Str × Ast.Body)} (hl : ∀ b ∈ bs, ∀ s ∈ b.2.inputs, s.lower ≠ .epsilon ∧ s.lower ≠ .eof) :
    ∀ {i : Nat} {as : List Act} {l : List Str}, actsFrom i bs = .ok as → mapRes (fun a => callImplArgs a.inputs) as = .ok l →
      ∀ b ∈ bs, ∀ n ty, Ast.InSym.named n ty ∈ b.2.inputs → n ≠ none ∧ ∀ m t, ty ≠ .named m t := by
  induction bs with
  | nil => intro i as l _ _ b h; cases h
  | cons b bs ih =>
    intro i as l h1 h2
    simp only [actsFrom, bind, Except.bind, pure, Except.pure] at h1
    cases hp : paramsOf b.2.inputs with
    | error e => rw [hp] at h1; cases h1
    | ok q =>
      cases ha : actsFrom (i + 1) bs with
      | error e => rw [hp, ha] at h1; cases h1
      | ok as' =>
        rw [hp, ha] at h1; cases h1
        simp only [mapRes, bind, Except.bind, pure, Except.pure] at h2
        cases hc : callImplArgs q with
        | error e => rw [hc] at h2; cases h2
        | ok t =>
          cases hm : mapRes (fun a => callImplArgs a.inputs) as' with
          | error e => rw [hc, hm] at h2; cases h2
          | ok l' =>
            intro b' hb'
            rcases List.mem_cons.mp hb' with rfl | hb'
            · exact callImplArgs_written (hl b' List.mem_cons_self) hp hc
            · exact ih (fun b hb => hl b (List.mem_cons_of_mem _ hb)) ha hm b' hb'

theorem generate_written {ps : List Ast.Prod} {l : Lalr} {T : Tables} (he : Expressible ps) (h : generate ps l = .ok T) :
    WrittenNames ps := by
  have hl : ∀ b ∈ bodiesOf ps, ∀ s ∈ b.2.inputs, s.lower ≠ .epsilon ∧ s.lower ≠ .eof := fun b hb s hs => by
    obtain ⟨p, hp, _, hb'⟩ := mem_bodiesOf hb
    obtain ⟨h1, h2, _⟩ := ((he p hp).2 _ hb').2 s hs
    exact ⟨h1, h2⟩
  simp only [generate, actsOf, bind, Except.bind, pure, Except.pure] at h
  split at h
  · cases h
  · rename_i as ha
    split at h
    · cases h
    · split at h
      · cases h
      · split at h
        · cases h
        · rename_i ar hr
          intro p hp b hb n ty hm
          exact args_written hl ha hr (p.name, b) (by
            simp only [bodiesOf, List.mem_flatMap, List.mem_map]
            exact ⟨p, hp, b, hb, rfl⟩) n ty hm

theorem generate_ok {ps : List Ast.Prod} {g : Grammar} {l : Lalr} (he : Expressible ps) (hn : WrittenNames ps)
    (hg : fromAst ps = .ok g) (hl : l.grammar = g) : ∃ T, generate ps l = .ok T ∧ GenOk ps g l T := by
  have hok := gok_of_fromAst he hg
  have hw : ∀ b ∈ bodiesOf ps, ∀ s ∈ b.2.inputs, Written s := fun b hb s hs => by
    obtain ⟨p, hp, _, hb'⟩ := mem_bodiesOf hb
    exact written he hn hp hb' hs
  obtain ⟨as, h1, h2⟩ := actsFrom_ok (bs := bodiesOf ps) 1 hw
  obtain ⟨ar, h5⟩ := args_ok hw h1
  obtain ⟨pr, h3, h4⟩ := genProductions_ok hok (ps := g.prods) fun _ h => h
  have heps : Sym.epsilon ∉ g.tokens := by
    intro h
    rcases (hok.tokMem _).mp h with h | ⟨p, hp, h⟩
    · cases h
    · exact hok.noEps p hp h
  refine ⟨⟨ps.map (·.name), pr, l.action, l.goto, genKinds g, as⟩, ?_, rfl, rfl, rfl, rfl, h4, ?_⟩
  · simp only [generate, actsOf, h1, hl, heps, if_false, h3, h5, bind, Except.bind, pure, Except.pure]
  · intro k prod hk hprod
    obtain ⟨start, hf⟩ := fromAst_ok hg
    obtain ⟨g', hg', _, _, hprods, _⟩ := fromAst_spec hf
    rw [hg] at hg'; cases hg'
    obtain ⟨k, rfl⟩ : ∃ m, k = m + 1 := ⟨k - 1, by omega⟩
    rw [hprods, List.getElem?_cons_succ] at hprod
    have e1 := congrArg (fun l => l[k]?) (bodiesOf_prods ps)
    simp only [List.getElem?_map, hprod, Option.map_some] at e1
    cases hb : (bodiesOf ps)[k]? with
    | none => rw [hb] at e1; cases e1
    | some b =>
      rw [hb] at e1
      simp only [Option.map_some, Option.some.injEq, Prod.mk.injEq] at e1
      obtain ⟨p, hp, hpn, hpb⟩ := mem_bodiesOf (List.mem_of_getElem? hb)
      refine ⟨p, hp, b.2, hpb, ?_, by rw [← e1.1, hpn], e1.2.symm, ?_⟩
      · have e2 := congrArg (fun l => l[k]?) (bodiesOf_bodies ps)
        simp only [List.getElem?_map, hb, Option.map_some] at e2
        rw [bodyOf, ← e2]
      · have := h2 k b hb
        rw [Nat.add_comm] at this
        simp only [this, actOf, hpn]

/-! ## token kinds -/

/-- The key of a terminal or of the end marker. -/
def keyOf : Sym → Str
  | .eof => "EOF".toList
  | s => spelling s

theorem mget_unique {κ ν : Type} [DecidableEq κ] {k : κ} {v : ν} : ∀ {m : List (κ × ν)}, (k, v) ∈ m →
    (∀ v', (k, v') ∈ m → v' = v) → mget k m = some v
  | [], h, _ => by simp at h
  | (k', v') :: m, h, hu => by
    simp only [mget]
    by_cases hk : k = k'
    · rw [if_pos hk, hu v' (by simp [hk])]
    · rw [if_neg hk]
      exact mget_unique (by simpa [hk] using h) fun w hw => hu w (by simp [hw])

theorem mem_genKinds {g : Grammar} {key : Str} {k : Nat} :
    (key, k) ∈ genKinds g ↔ ∃ s, g.tokens[k]? = some s ∧ (IsTerm s ∨ s = .eof) ∧ key = keyOf s := by
  simp only [genKinds, List.mem_filterMap, Prod.exists, List.mem_zipIdx_iff_getElem?, kindEntry]
  constructor
  · rintro ⟨s, j, h1, h2⟩
    cases s <;> simp only [Option.some.injEq, Prod.mk.injEq, reduceCtorEq] at h2
    all_goals
      obtain ⟨rfl, rfl⟩ := h2
      exact ⟨_, h1, by simp [IsTerm], rfl⟩
  · rintro ⟨s, h1, h2, rfl⟩
    refine ⟨s, k, h1, ?_⟩
    cases s <;> simp_all [IsTerm, keyOf, spelling]

theorem mget_kinds {g : Grammar} (hg : GOk g) (hd : DistinctKinds g) {s : Sym} {k : Nat}
    (hk : g.tokens[k]? = some s) (hs : IsTerm s ∨ s = .eof) : mget (keyOf s) (genKinds g) = some k := by
  refine mget_unique (mem_genKinds.mpr ⟨s, hk, hs, rfl⟩) ?_
  intro k' hk'
  obtain ⟨s', h1, h2, h3⟩ := mem_genKinds.mp hk'
  have hm := List.mem_of_getElem? hk
  have hm' := List.mem_of_getElem? h1
  have key : ∀ {s}, IsTerm s → keyOf s = spelling s := by
    intro s hs; cases s <;> simp_all [IsTerm, keyOf]
  have : s' = s := by
    rcases hs with hs | rfl <;> rcases h2 with h2 | rfl
    · rw [key hs, key h2] at h3
      exact (hd.1 s hm s' hm' hs h2 h3).symm
    · rw [key hs] at h3
      exact absurd h3 (hd.2 s hm hs)
    · rw [key h2] at h3
      exact absurd h3.symm (hd.2 s' hm' h2)
    · rfl
  subst this
  have e1 := (GOk.tokIdx hg).mpr hk
  have e2 := (GOk.tokIdx hg).mpr h1
  rw [e1] at e2
  exact (Option.some.inj e2).symm

end Verif.ParseGen
