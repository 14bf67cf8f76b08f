import Verif.Proofs.HashOk
import Verif.Proofs.SipOk
import Verif.Spec.Hash
import Verif.Props.Collisions
import Verif.Props.LispRust
import Verif.Props.Program

/-! # Property C71: the hash of cores

`core_hash` (src/lalr/item.rs:153-163) with the hasher of the standard library written out. -/

namespace Verif.Props
open Verif Spec Hash

/-- C71: the bytes fed to the hasher determine the core: two cores can have one hash only if the
hasher gives two strings of bytes one hash. -/
theorem C71_bytes {a b : List Item} (ha : Fits32 a) (hb : Fits32 b) : coreBytes a = coreBytes b ↔ a = b :=
  ⟨coreBytes_inj ha hb, fun h => h ▸ rfl⟩

/-- C71: so for every grammar whose numbers fit in 32 bits, the cores of its LR(1) sets have no
collision exactly if the strings of bytes fed to the hasher have none. -/
theorem C71_grammar {ps : List Ast.Prod} {g : Grammar} (he : Expressible ps) (hg : Grammar.fromAst ps = .ok g)
    (hs : SmallGrammar g) {H : Type} (f : List Nat → H) {depth : Nat} {lr : List ItemSet}
    (hlr : ItemSet.items g depth = .ok lr) :
    CollisionFree (fun c => f (coreBytes c)) lr ↔
      ∀ x ∈ lr.map (fun s => coreBytes (coreOf s)), ∀ y ∈ lr.map (fun s => coreBytes (coreOf s)), f x = f y → x = y := by
  obtain ⟨_, hw, _, hr, _⟩ := C22_items_exact he hg depth hlr
  have fits : ∀ s ∈ lr, Fits32 (coreOf s) := fun s h =>
    core_fits (Grammar.gok_of_fromAst he hg) (hw s h).1 (hr s h) hs.1 hs.2
  constructor
  · intro h x hx y hy e
    obtain ⟨s, hs, rfl⟩ := List.mem_map.mp hx
    obtain ⟨t, ht, rfl⟩ := List.mem_map.mp hy
    rw [h s hs t ht e]
  · intro h s hs t ht e
    exact (C71_bytes (fits s hs) (fits t ht)).mp (h _ (List.mem_map_of_mem hs) _ (List.mem_map_of_mem ht) e)

/-- C71: the hash written out is SipHash-1-3 with zero keys, and the hash of a core is that of its production numbers
and dots, four bytes each, the low one first. -/
theorem C71_siphash : (∀ bs : List (BitVec 8), sip13 (bs.map (·.toNat)) = (SipHash.hash 1 3 0 0 bs).toNat) ∧
    ∀ c : List Item, coreHash c = (SipHash.hash 1 3 0 0 (c.flatMap fun it => SipHash.le32 it.1 ++ SipHash.le32 it.2)).toNat := by
  refine ⟨sip13_eq, fun c => ?_⟩
  rw [← sip13_eq, coreHash]
  congr 1
  simp only [coreBytes, List.map_flatMap, List.map_append, le32_eq]
  rfl

/-- C71 is not true of all cores, as the hash has 64 bits: two different cores of at most one item,
with numbers of 32 bits, have one hash. -/
theorem C71_false : ∃ a b : List Item, a ≠ b ∧ a.length ≤ 1 ∧ b.length ≤ 1 ∧ Fits32 a ∧ Fits32 b ∧ coreHash a = coreHash b := by
  obtain ⟨a, b, h1, h2, h3, h4, h5⟩ := collide
  exact ⟨a, b, h1, h2, h3, fun it h => h4 it (List.mem_append_left _ h), fun it h => h4 it (List.mem_append_right _ h), h5⟩

/-- C71: the hash of whole sets, `ItemSet::hash`, does not even feed different bytes for different sets:
an item is not kept apart from the lookaheads before it.  (Only index sets use it, and those compare the
sets as well.) -/
theorem C71_sets_false : ∃ s t : ItemSet, WFSet s ∧ WFSet t ∧ coreOf s ≠ coreOf t ∧ setBytes s = setBytes t ∧
    defaultHash s = defaultHash t := by
  refine ⟨[((1, 0), [2]), ((3, 4), [5])], [((1, 0), [2, 3, 4, 5])], ⟨?_, ?_⟩, ⟨?_, ?_⟩, by decide, by decide, by decide +kernel⟩
  · unfold Sorted; decide +kernel
  · intro it l h
    simp only [List.mem_cons, Prod.mk.injEq, List.not_mem_nil, or_false] at h
    rcases h with ⟨_, rfl⟩ | ⟨_, rfl⟩ <;> exact ⟨by simp, by unfold Sorted; decide +kernel⟩
  · unfold Sorted; decide +kernel
  · intro it l h
    simp only [List.mem_cons, Prod.mk.injEq, List.not_mem_nil, or_false] at h
    rcases h with ⟨_, rfl⟩; exact ⟨by simp, by unfold Sorted; decide +kernel⟩

/-- No two different cores have one hash. -/
def apartHashB (l : List (Nat × List Item)) : Bool :=
  l.all fun p => l.all fun q => !(p.1 == q.1) || decide (p.2 = q.2)

/-- C71: with the real hash no two cores of the project's grammar collide. -/
theorem C71_lisp : NoCollisions coreHash (lower lispAst) (Lalr.depthOf (lower lispAst)) := by
  have h : ((ItemSet.items (lower lispAst) (Lalr.depthOf (lower lispAst))).toOption.map
      fun lr => apartHashB (lr.map fun s => (coreHash (coreOf s), coreOf s))) = some true := by
    decide +kernel
  intro lr hlr s hs t ht e
  rw [hlr] at h
  simp only [Except.toOption, Option.map_some, Option.some.injEq] at h
  have := List.all_eq_true.mp (List.all_eq_true.mp h _ (List.mem_map_of_mem hs)) _ (List.mem_map_of_mem ht)
  simp only [Bool.or_eq_true, Bool.not_eq_true', beq_eq_false_iff_ne, decide_eq_true_eq] at this
  exact this.resolve_left fun h => h e

/-- C71: so for the project's grammar, the program as it is, with the real hash, in a debug build or a
release build and for every order in which hash sets are iterated, builds the parser of C59 and C63 and
writes the two files. -/
theorem C71_program {ord : Nfa.Order} (ho : Reorders ord) :
    Lalr.newDebug coreHash lispRx ord (lower lispAst) = .ok lispL ∧ Lalr.new coreHash lispRx ord (lower lispAst) = .ok lispL ∧
    ∃ out, compile coreHash lispRx ord lispText = .ok out := by
  obtain ⟨h1, h2, _, h4⟩ := C59_generated
  have hn := h4 coreHash ord ho C71_lisp
  refine ⟨(C62_debug lisp_generated.expr h2).mpr ⟨hn, C71_lisp⟩, hn, ?_⟩
  have hr : ReadsGrammar lispText lispAst (startOf lispAst) := ⟨(C49_reads _ _).mp h1, startOf_eq (by decide +kernel)⟩
  exact (compile_eq hr h2).2.mpr ⟨_, hn⟩

/-- C71: and this parser answers as C63 says, with nothing assumed about the hash. -/
theorem C71_parse {ord : Nfa.Order} (ho : Reorders ord) (text : Str) {fuel : Nat} (hf : 8 * (2 * text.length + 1) ≤ fuel) :
    ∃ l, Lalr.new coreHash lispRx ord (lower lispAst) = .ok l ∧
      (∀ out, l.parse fuel text = .ok out ↔ ∃ (es : Lisp.Exprs) (body rest : Str), text = body ++ rest ∧
        Lisp.Spaced (Lisp.listWords es) body ∧ Lisp.Stuck rest ∧ out = Lisp.listRules es) ∧
      ((∃ out, l.parse fuel text = .ok out) ∨ l.parse fuel text = .error .invalidToken) := by
  obtain ⟨h1, h2, _⟩ := C59_generated
  exact ⟨lispL, (C71_program ho).2.1, C63_parse ho h1 h2 C71_lisp (C71_program ho).2.1 text hf⟩

/-! ## Samples -/

-- C71: the hashes of three strings of bytes, as another program with SipHash-1-3 and zero keys gives
-- them.
example : sip13 [97, 98, 99] = 13851880170939887858 ∧ sip13 (List.range 20) = 7178233520606413056 ∧
    sip13 (List.range 8) = 16921169381604339434 := by decide +kernel

-- C71: SipHash-2-4 of the bytes 0 to 14 with the key 0 to 15, the example of appendix A of the paper.
example : SipHash.hash 2 4 0x0706050403020100 0x0f0e0d0c0b0a0908 ((List.range 15).map (BitVec.ofNat 8)) = 0xa129ca6149be45e5 := by
  decide +kernel

-- C71: the bytes of a core of two items; the numbers fit.
example : Fits32 [(1, 2), (258, 0)] ∧ coreBytes [(1, 2), (258, 0)] = [1, 0, 0, 0, 2, 0, 0, 0, 2, 1, 0, 0, 0, 0, 0, 0] := by
  refine ⟨?_, by decide⟩
  intro it h
  simp only [List.mem_cons, List.not_mem_nil, or_false] at h
  rcases h with rfl | rfl <;> decide

-- C71: the project's grammar is small, and has LR(1) sets of which two have one core.
example : SmallGrammar (lower lispAst) ∧ Grammar.fromAst lispAst = .ok (lower lispAst) ∧ Expressible lispAst ∧
    ∃ lr, ItemSet.items (lower lispAst) (Lalr.depthOf (lower lispAst)) = .ok lr ∧
      ¬ (lr.map fun s => coreHash (coreOf s)).Nodup := by
  refine ⟨⟨by rw [lisp_rule_count]; decide, ?_⟩, lisp_generated.ast, lisp_generated.expr, ?_⟩
  · have : ((lower lispAst).prods.all fun p => decide (p.inputs.length < 2 ^ 32)) = true := by decide +kernel
    intro p hp
    exact of_decide_eq_true (List.all_eq_true.mp this p hp)
  · have h : ((ItemSet.items (lower lispAst) (Lalr.depthOf (lower lispAst))).toOption.map
        fun lr => decide (lr.map fun s => coreHash (coreOf s)).Nodup) = some false := by decide +kernel
    cases hlr : ItemSet.items (lower lispAst) (Lalr.depthOf (lower lispAst)) with
    | error e => rw [hlr] at h; cases h
    | ok lr =>
      rw [hlr] at h
      simp only [Except.toOption, Option.map_some, Option.some.injEq, decide_eq_false_iff_not] at h
      exact ⟨lr, rfl, h⟩

end Verif.Props
