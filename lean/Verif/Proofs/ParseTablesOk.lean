import Verif.Proofs.ParseReadOk
import Verif.Proofs.LexTablesOk

/-! # The tables described by the module `type_defs` -/

namespace Verif.Spec
open Verif LexGen ParseGen

theorem inOrder_zipIdx {α : Type} (l : List α) : inOrder (l.zipIdx.map fun p => (p.2, p.1)) = some l := by
  have e1 : (l.zipIdx.map fun p => (p.2, p.1)).map Prod.fst = List.range (l.zipIdx.map fun p => (p.2, p.1)).length := by
    rw [List.map_map, show (Prod.fst ∘ fun p : α × Nat => (p.2, p.1)) = Prod.snd from rfl]
    simp [List.zipIdx_map_snd, List.range_eq_range']
  have e2 : (l.zipIdx.map fun p => (p.2, p.1)).map Prod.snd = l := by
    rw [List.map_map, show (Prod.snd ∘ fun p : α × Nat => (p.2, p.1)) = Prod.fst from rfl]
    simp
  unfold inOrder
  rw [if_pos e1, e2]

theorem nodup_num {α : Type} {f : α → Nat} {l : List α} {g : α → TsKey × TsTy} (hg : ∀ a, (g a).1 = .num (f a)) (h : (l.map f).Nodup) :
    ((l.map g).map Prod.fst).Nodup := by
  rw [List.map_map, show Prod.fst ∘ g = TsKey.num ∘ f from funext hg, ← List.map_map]
  exact nodup_map_of_inj (fun a b e => by cases e; rfl) h

theorem nodup_name {α : Type} {f : α → Str} {l : List α} {g : α → TsKey × TsTy} (hg : ∀ a, (g a).1 = .name (f a)) (h : (l.map f).Nodup) :
    ((l.map g).map Prod.fst).Nodup := by
  rw [List.map_map, show Prod.fst ∘ g = TsKey.name ∘ f from funext hg, ← List.map_map]
  exact nodup_map_of_inj (fun a b e => by cases e; rfl) h

theorem nodup_zipIdx {α : Type} (l : List α) : (l.zipIdx.map Prod.snd).Nodup := by
  simp [List.zipIdx_map_snd, List.nodup_range']

/-- No key twice. -/
structure DistinctRows (t : ParseGen.Tables) : Prop where
  action : (t.action.map Prod.fst).Nodup
  actionRow : ∀ r ∈ t.action, (r.2.map Prod.fst).Nodup
  goto : (t.goto.map Prod.fst).Nodup
  gotoRow : ∀ r ∈ t.goto, (r.2.map Prod.fst).Nodup
  kinds : (t.kindToIdx.map Prod.fst).Nodup

theorem actionOf_ty (a : Action) : actionOf (actionTy a) = some a := by
  cases a <;> rfl

theorem typeDefs_eq {t : ParseGen.Tables} {ts : List Sym} (h : DistinctRows t) (he : Sym.epsilon ∉ ts) :
    typeDefs (typeDefsDecls t ts) = some ⟨t.symbols, ts, t.productions, t.action, t.goto, t.kindToIdx⟩ := by
  have hn : ((typeDefsDecls t ts).map Prod.fst).Nodup := by
    simp only [typeDefsDecls, List.map_cons, List.map_nil]
    decide +kernel
  have m1 : declOf (typeDefsDecls t ts) "Symbol".toList = some (symbolsTy t.symbols) := declOf_eq hn (by simp [typeDefsDecls])
  have m2 : declOf (typeDefsDecls t ts) "Tokens".toList = some (.obj (ts.zipIdx.map tokenMem)) := declOf_eq hn (by simp [typeDefsDecls])
  have m3 : declOf (typeDefsDecls t ts) "Productions".toList = some (.obj (t.productions.zipIdx.map productionMem)) :=
    declOf_eq hn (by simp [typeDefsDecls])
  have m4 : declOf (typeDefsDecls t ts) "Action".toList = some (.obj (t.action.map actionRowMem)) := declOf_eq hn (by simp [typeDefsDecls])
  have m5 : declOf (typeDefsDecls t ts) "Goto".toList = some (.obj (t.goto.map gotoRowMem)) := declOf_eq hn (by simp [typeDefsDecls])
  have m6 : declOf (typeDefsDecls t ts) "TokenKindToIdx".toList = some (.obj (t.kindToIdx.map gotoMem)) :=
    declOf_eq hn (by simp [typeDefsDecls])
  have c1 : symbolKinds (symbolsTy t.symbols) = some t.symbols := by
    have k0 : symbolKind tokenSymTy = some "token".toList := rfl
    unfold symbolsTy
    by_cases h0 : t.symbols = []
    · rw [if_pos h0, h0]; rfl
    · rw [if_neg h0]
      have : collect symbolKind (t.symbols.map symbolTy) = some t.symbols := collect_id fun _ _ => rfl
      simp only [symbolKinds, k0, bind, Option.bind, if_true, this]
  have c2 : collect tokenEntry (ts.zipIdx.map tokenMem) = some (ts.zipIdx.map fun p => (p.2, p.1)) := by
    refine collect_map fun p hp => ?_
    have h0 : p.1 ≠ .epsilon := fun e => he (e ▸ List.fst_mem_of_mem_zipIdx hp)
    obtain ⟨s, i⟩ := p
    cases s with
    | epsilon => exact absurd rfl h0
    | _ => rfl
  have c3 : collect productionOf (t.productions.zipIdx.map productionMem) = some (t.productions.zipIdx.map fun p => (p.2, p.1)) := by
    refine collect_map fun p hp => ?_
    obtain ⟨⟨n, l⟩, i⟩ := p
    have a1 : memberOf (productionMem ((n, l), i)).2 "name" = some (.str n) := rfl
    have a2 : memberOf (productionMem ((n, l), i)).2 "tokens" = some (.tuple (l.map .num)) := rfl
    have a3 : keyNum (productionMem ((n, l), i)).1 = some i := rfl
    have b1 : collect numOf (l.map .num) = some l := collect_id fun _ _ => rfl
    simp only [productionOf, a1, a2, a3, strOf, elemsOf, b1, bind, Option.bind, pure]
  have c4 : collect actionRow (t.action.map actionRowMem) = some t.action := by
    refine collect_id fun r hr => ?_
    obtain ⟨s, es⟩ := r
    have b0 : membersOf (actionRowMem (s, es)).2 = some (es.map actionMem) :=
      if_pos (nodup_num (f := Prod.fst) (fun _ => rfl) (h.actionRow _ hr))
    have b1 : collect (fun e : TsKey × TsTy => do return (← keyNum e.1, ← actionOf e.2)) (es.map actionMem) = some es :=
      collect_id fun e _ => by
        simp only [actionMem, keyNum, actionOf_ty, bind, Option.bind, pure]
    have b2 : keyNum (actionRowMem (s, es)).1 = some s := rfl
    simp only [bind, Option.bind, pure] at b1
    simp only [actionRow, b0, b1, b2, bind, Option.bind, pure]
  have g0 : ∀ es : List (Str × Nat), collect (fun e : TsKey × TsTy => do return (← keyName e.1, ← numOf e.2)) (es.map gotoMem) = some es :=
    fun es => collect_id fun e _ => rfl
  simp only [bind, Option.bind, pure] at g0
  have c5 : collect gotoRow (t.goto.map gotoRowMem) = some t.goto := by
    refine collect_id fun r hr => ?_
    obtain ⟨s, es⟩ := r
    have b0 : membersOf (gotoRowMem (s, es)).2 = some (es.map gotoMem) :=
      if_pos (nodup_name (f := Prod.fst) (fun _ => rfl) (h.gotoRow _ hr))
    have b2 : keyNum (gotoRowMem (s, es)).1 = some s := rfl
    simp only [gotoRow, b0, g0, b2, bind, Option.bind, pure]
  have n2 : membersOf (.obj (ts.zipIdx.map tokenMem)) = some (ts.zipIdx.map tokenMem) :=
    if_pos (nodup_num (f := Prod.snd) (fun _ => rfl) (nodup_zipIdx _))
  have n3 : membersOf (.obj (t.productions.zipIdx.map productionMem)) = some (t.productions.zipIdx.map productionMem) :=
    if_pos (nodup_num (f := Prod.snd) (fun _ => rfl) (nodup_zipIdx _))
  have n4 : membersOf (.obj (t.action.map actionRowMem)) = some (t.action.map actionRowMem) :=
    if_pos (nodup_num (f := Prod.fst) (fun _ => rfl) h.action)
  have n5 : membersOf (.obj (t.goto.map gotoRowMem)) = some (t.goto.map gotoRowMem) :=
    if_pos (nodup_num (f := Prod.fst) (fun _ => rfl) h.goto)
  have n6 : membersOf (.obj (t.kindToIdx.map gotoMem)) = some (t.kindToIdx.map gotoMem) :=
    if_pos (nodup_name (f := Prod.fst) (fun _ => rfl) h.kinds)
  simp only [typeDefs, m1, m2, m3, m4, m5, m6, c1, c2, c3, c4, c5, g0, n2, n3, n4, n5, n6, inOrder_zipIdx, bind, Option.bind, pure]

end Verif.Spec
