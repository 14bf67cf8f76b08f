import Verif.Proofs.TsParseOk

/-! Every tree of a well typed grammar has a value. -/

namespace Verif.Ts
open Spec Grammar ParseGen

variable {V : Type} {S : Sem V} {ps : List Ast.Prod} {g : Grammar}

theorem body_of_prod (hg : fromAst ps = .ok g) {k : Nat} {prod : Production} (hk : k ≠ 0) (hprod : g.prods[k]? = some prod) :
    ∃ p ∈ ps, ∃ b ∈ p.bodies, bodyOf ps k = some b ∧ prod.name = p.name ∧ prod.inputs = b.inputs.map Ast.InSym.lower := by
  obtain ⟨start, hf⟩ := fromAst_ok hg
  obtain ⟨g', hg', _, _, hprods, _⟩ := fromAst_spec hf
  rw [hg] at hg'; cases hg'
  obtain ⟨k, rfl⟩ : ∃ m, k = m + 1 := ⟨k - 1, by omega⟩
  rw [hprods, List.getElem?_cons_succ] at hprod
  have e1 := congrArg (fun l => l[k]?) (bodiesOf_prods ps)
  simp only [List.getElem?_map, hprod, Option.map_some] at e1
  cases hb : (bodiesOf ps)[k]? with
  | none => rw [hb] at e1; cases e1
  | some b =>
    rw [hb] at e1
    simp only [Option.map_some, Option.some.injEq, Prod.mk.injEq] at e1
    obtain ⟨p, hp, hpn, hpb⟩ := mem_bodiesOf (List.mem_of_getElem? hb)
    refine ⟨p, hp, b.2, hpb, ?_, by rw [← e1.1, hpn], e1.2.symm⟩
    have e2 := congrArg (fun l => l[k]?) (bodiesOf_bodies ps)
    simp only [List.getElem?_map, hb, Option.map_some] at e2
    rw [bodyOf, ← e2]

theorem eval_total (hwt : WellTyped S ps) (he : Expressible ps) (hg : fromAst ps = .ok g) : ∀ (f : Forest), f.Valid g.prods →
    .nonTerm g.augName ∉ f.roots g.prods → ∀ us, List.Forall₂ (fun x u => ∀ s, x = Sym.strLit s → u = s) f.yield us →
    ∃ vs, Eval S ps f us vs ∧ List.Forall₂ (Occurs S ps) (f.roots g.prods) vs
  | .nil, _, _, us, hu => by
    cases hu
    exact ⟨[], .nil, .nil⟩
  | .leaf t rest, hv, hr, us, hu => by
    cases hu with
    | @cons _ u _ us h1 h2 =>
      obtain ⟨vs, h3, h4⟩ := eval_total hwt he hg rest hv.2 (fun h => hr (List.mem_cons_of_mem _ h)) us h2
      refine ⟨_, .leaf h3, .cons ?_ h4⟩
      cases t with
      | strLit l => rw [h1 l rfl]; exact .strLit
      | regex r => exact .regex
      | nonTerm _ => exact hv.1.elim
      | epsilon => exact hv.1.elim
      | eof => exact hv.1.elim
  | .node p kids rest, hv, hr, us, hu => by
    obtain ⟨⟨prod, hp, hin⟩, hvk, hvr⟩ := hv
    have hok := gok_of_fromAst he hg
    have hroots : (Forest.node p kids rest).roots g.prods = .nonTerm prod.name :: rest.roots g.prods := by
      simp [Forest.roots, hp]
    rw [hroots] at hr ⊢
    have hp0 : p ≠ 0 := by
      rintro rfl
      obtain ⟨_, h⟩ := hok.start
      rw [h] at hp; cases hp
      exact hr List.mem_cons_self
    obtain ⟨P, hP, b, hb, hbo, hname, hin'⟩ := body_of_prod hg hp0 hp
    obtain ⟨us1, us2, rfl, u1, u2⟩ := forall₂_append_left hu
    obtain ⟨kvs, k1, k2⟩ := eval_total hwt he hg kids hvk (by rw [← hin]; exact hok.fresh _ (List.mem_of_getElem? hp)) us1 u1
    obtain ⟨vs, r1, r2⟩ := eval_total hwt he hg rest hvr (fun h => hr (List.mem_cons_of_mem _ h)) us2 u2
    rw [← hin, hin'] at k2
    obtain ⟨v, hv, _⟩ := hwt P hP b hb kvs k2
    refine ⟨v :: vs, .node hbo k1 hv r1, .cons ?_ r2⟩
    rw [hname]
    exact .nonTerm hP hb (by simpa using k2.length_eq.symm) (fun i s u h1 h2 => forall₂_get k2 h1 h2) hv

end Verif.Ts
