import Verif.Proofs.LL1Size
import Verif.Props.LL1
import Verif.Props.Sizes

/-! # Property: the tables of an LL(1) grammar are small (C103) -/

namespace Verif.Props
open Verif Verif.Spec

section
variable {H : Type} [DecidableEq H] {hash : List Item → H} {ps : List Ast.Prod}
  {start : Ast.Prod} {g : Grammar} {depth : Nat} {action : Table Nat Action} {got : Table Str Nat} {states : List ItemSet}

open Classical in
/-- **C103, exactly.**  There are two states more than symbols in the bodies of the nonterminals that can be reached. -/
theorem C103_exact (hB : Built hash ps start g depth action got states) (hc : NoCollisions hash g depth) (hl : LL1 ps start.name)
    (hb : Begins ps start.name) :
    states.length = 2 + (((rulesOf ps).filter fun x => decide (Uses (AstRule ps) start.name x.1)).map fun x => x.2.length).sum := by
  have hok := hB.ok
  have hL := llG hB.expr hl hb hB.first hB.ast
  obtain ⟨lr, m, e1, e2, -⟩ := Lalr.makeTables_ok hB.tables
  obtain ⟨-, h2, -, h3, h3'⟩ := C22_items_exact hB.expr hB.ast depth e1
  obtain ⟨states', m', h4, h5, -⟩ := C23_merge_exact (fun s hs => (h2 s hs).1) (hc lr e1)
  obtain ⟨rfl, rfl⟩ : states' = states ∧ m' = m := by rw [h4] at e2; cases e2; exact ⟨rfl, rfl⟩
  have hlen : states'.length = (firsts (lr.map coreOf)).length := by rw [← h5, List.length_map]
  have hex : ∀ u ∈ firsts (lr.map coreOf), ∃ k, k ∈ (kernels g).filter (fun k => decide (UsedAt (AstRule ps) start.name g k.1)) ∧ ∃ s ∈ lr, coreOf s = u ∧ OneOf g (Has s) k := by
    intro u hu
    obtain ⟨s, hs, rfl⟩ := List.mem_map.mp (mem_firsts.mp hu)
    obtain ⟨k, k1, k1', k2⟩ := oneOf_reach hok hL (h3 s hs)
    exact ⟨k, List.mem_filter.2 ⟨k1, decide_eq_true k1'⟩, s, hs, rfl, k2⟩
  choose! f hf using hex
  have hnd : ((firsts (lr.map coreOf)).map f).Nodup := by
    refine (List.nodup_map_iff_inj_on (nodup_firsts _)).2 fun u hu v hv huv => ?_
    obtain ⟨-, s, hs, rfl, k2⟩ := hf u hu
    obtain ⟨-, t, ht, rfl, k4⟩ := hf v hv
    rw [← huv] at k4
    exact Lalr.core_eq (h2 s hs).1 (h2 t ht).1 (oneOf_core hok k2 k4)
  have hsub := (hnd.subperm fun k hk => by
    obtain ⟨u, hu, rfl⟩ := List.mem_map.mp hk
    exact (hf u hu).1 : ((firsts (lr.map coreOf)).map f).Subperm _).length_le
  have has_eq : ∀ {I}, Reach g I → ∃ s ∈ lr, Has s = I := by
    intro I hI
    obtain ⟨s, hs, h⟩ := h3' I hI
    exact ⟨s, hs, by funext it la; exact propext (h it la)⟩
  have hserv : ∀ I, Reach g I → ∀ it la, I it la → ItemSet.Served g it la := by
    intro I hI it la h
    obtain ⟨i0, hi0, hr⟩ := (ItemSet.items_spec hok depth).1 lr e1
    obtain ⟨s, hs, rfl⟩ := has_eq hI
    exact (hr.ready hok hi0 hs h).served hok (ItemSet.reach_termLa hok hI it la h)
  have hk := congrArg (·[0]?) (prods_keys hB.first hB.ast)
  rw [List.getElem?_cons_zero] at hk
  obtain ⟨p0, k1, -, k3⟩ := key_at.1 hk
  have hex' : ∀ k ∈ (kernels g).filter (fun k => decide (UsedAt (AstRule ps) start.name g k.1)), ∃ s, s ∈ lr ∧ OneOf g (Has s) k := by
    intro k hk
    obtain ⟨hk, hu⟩ := List.mem_filter.1 hk
    obtain ⟨I, hI, h⟩ := kernel_reached hok hL hserv k1 k3 hk (of_decide_eq_true hu)
    obtain ⟨s, hs, rfl⟩ := has_eq hI
    exact ⟨s, hs, h⟩
  choose! f' hf' using hex'
  have hnd' : (((kernels g).filter fun k => decide (UsedAt (AstRule ps) start.name g k.1)).map fun k => coreOf (f' k)).Nodup := by
    refine (List.nodup_map_iff_inj_on ((kernels_nodup g).filter _)).2 fun k hk k' hk' hkk => ?_
    refine oneOf_inj (List.mem_filter.1 hk).1 (List.mem_filter.1 hk').1 (hf' k hk).2 (hf' k' hk').2 fun it => ?_
    rw [← ItemSet.mem_core (h2 _ (hf' k hk).1).1, ← ItemSet.mem_core (h2 _ (hf' k' hk').1).1]
    exact Eq.to_iff (congrArg (it ∈ ·) hkk)
  have hsub' := (hnd'.subperm fun u hu => by
    obtain ⟨k, hk, rfl⟩ := List.mem_map.mp hu
    exact mem_firsts.mpr (List.mem_map.mpr ⟨_, (hf' k hk).1, rfl⟩) :
      (((kernels g).filter fun k => decide (UsedAt (AstRule ps) start.name g k.1)).map fun k => coreOf (f' k)).Subperm (firsts (lr.map coreOf))).length_le
  have hcount := used_kernels (R := AstRule ps) start.name (prods_keys hB.first hB.ast)
  rw [List.length_map, hcount] at hsub hsub'
  omega

/-- **C103.**  The tables of an LL(1) grammar have at most two states more than there are symbols in its bodies. -/
theorem C103_states (hB : Built hash ps start g depth action got states) (hc : NoCollisions hash g depth) (hl : LL1 ps start.name)
    (hb : Begins ps start.name) : states.length ≤ 2 + ((rulesOf ps).map fun x => x.2.length).sum := by
  rw [C103_exact hB hc hl hb]
  exact Nat.add_le_add_left (sum_filter_le _ _ _) 2

end

-- C103_states, C103_exact, and that the bound is reached: twelve states, ten symbols in the bodies of `onceAst`.
example : Built id onceAst (startOf onceAst) (lower onceAst) (Lalr.depthOf (lower onceAst)) (tablesOf (lower onceAst)).1
      (tablesOf (lower onceAst)).2.1 (tablesOf (lower onceAst)).2.2 ∧ NoCollisions id (lower onceAst) (Lalr.depthOf (lower onceAst)) ∧
    LL1 onceAst (startOf onceAst).name ∧ Begins onceAst (startOf onceAst).name ∧ (tablesOf (lower onceAst)).2.2.length = 12 ∧
    ((rulesOf onceAst).map fun x => x.2.length).sum = 10 :=
  ⟨once_built, noCollisions_id _ _, once_ll1, once_begins, by decide +kernel, by decide +kernel⟩

-- Five states, for the three symbols in the bodies of `S` and `T`; the other two nonterminals of `asideAst` cannot be reached.
example : Built id asideAst (startOf asideAst) (lower asideAst) (Lalr.depthOf (lower asideAst)) (tablesOf (lower asideAst)).1
      (tablesOf (lower asideAst)).2.1 (tablesOf (lower asideAst)).2.2 ∧ NoCollisions id (lower asideAst) (Lalr.depthOf (lower asideAst)) ∧
    LL1 asideAst (startOf asideAst).name ∧ Begins asideAst (startOf asideAst).name ∧ (tablesOf (lower asideAst)).2.2.length = 5 ∧
    ((rulesOf asideAst).map fun x => x.2.length).sum = 6 :=
  ⟨aside_built, noCollisions_id _ _, aside_ll1, aside_begins, by decide +kernel, by decide +kernel⟩

end Verif.Props
