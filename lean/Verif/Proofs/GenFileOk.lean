import Verif.Props.TsFiles
import Verif.Proofs.TsProjectOk
import Verif.Spec.TsGenFile

/-! # The generated files of a grammar meet the conditions of the project -/

namespace Verif.Props
open Verif Spec MiniTs

theorem dataExp_mono {P Q : Str → Prop} (h : ∀ x, P x → Q x) : (∀ e, dataExp P e → dataExp Q e) ∧ ∀ es, dataExps P es → dataExps Q es := by
  suffices H : ∀ n, (∀ e, sizeOf e ≤ n → dataExp P e → dataExp Q e) ∧ ∀ es, sizeOf es ≤ n → dataExps P es → dataExps Q es from
    ⟨fun e => (H _).1 e (Nat.le_refl _), fun es => (H _).2 es (Nat.le_refl _)⟩
  intro n
  induction n with
  | zero => exact ⟨fun e he => by cases e <;> simp at he, fun es he => by cases es <;> simp at he⟩
  | succ n ih =>
    refine ⟨fun e he hd => ?_, fun es he hd => ?_⟩
    · cases e with
      | ref x es => cases es with
        | nil => exact h x hd
        | cons _ _ _ => exact hd
      | idx t k =>
        simp only [Exp.idx.sizeOf_spec] at he
        exact ⟨ih.1 t (by omega) hd.1, ih.1 k (by omega) hd.2⟩
      | keyof t =>
        simp only [Exp.keyof.sizeOf_spec] at he
        exact ih.1 t (by omega) hd
      | arr t =>
        simp only [Exp.arr.sizeOf_spec] at he
        exact ih.1 t (by omega) hd
      | tup es =>
        simp only [Exp.tup.sizeOf_spec] at he
        exact ih.2 es (by omega) hd
      | obj es =>
        simp only [Exp.obj.sizeOf_spec] at he
        exact ih.2 es (by omega) hd
      | union es =>
        simp only [Exp.union.sizeOf_spec] at he
        exact ih.2 es (by omega) hd
      | tmpl es =>
        simp only [Exp.tmpl.sizeOf_spec] at he
        exact ih.2 es (by omega) hd
      | _ => exact hd
    · cases es with
      | nil => trivial
      | cons m e es =>
        simp only [Exps.cons.sizeOf_spec] at he
        exact ⟨ih.1 e (by omega) hd.1, ih.2 es (by omega) hd.2⟩

theorem bound_plain (act : Nat) : ∀ (ss : List Ast.InSym) (i : Nat), (∀ s ∈ ss, ParseGen.Written s) →
    bound (ParseGen.checks act i (ss.map ParseGen.plain)).1 = names ss
  | [], _, _ => rfl
  | s :: ss, i, h => by
    have ih := bound_plain act ss (i + 1) fun x hx => h x (List.mem_cons_of_mem _ hx)
    rw [Ts.names_cons, List.map_cons]
    simp only [ParseGen.checks, bound_append, ih]
    congr 1
    cases s with
    | named n ty =>
      obtain ⟨h1, h2⟩ := (h _ (List.mem_cons_self ..)).2.2 n ty rfl
      have h0 := h _ (List.mem_cons_self ..)
      cases n with
      | none => exact absurd rfl h1
      | some n =>
        cases ty with
        | named m t => exact absurd rfl (h2 m t)
        | epsilon => exact absurd rfl h0.1
        | eof => exact absurd rfl h0.2.1
        | _ => rfl
    | _ => rfl

theorem tables_nodup (lx : Lex) : ((LexGen.Tables.new lx).tokens.map (·.1)).Nodup := by
  have : ∀ {ν : Type} (l : List (Nat × ν)) (m : List (Nat × ν)), MSorted m →
      MSorted (l.foldl (fun m e => minsert e.1 e.2 m) m) := by
    intro ν l
    induction l with
    | nil => exact fun m h => h
    | cons e l ih => exact fun m h => ih _ (msorted_minsert h)
  exact Sorted.nodup (this (LexGen.tokenEntries lx) [] (by simp [MSorted, Sorted]))

section
variable {H : Type} [DecidableEq H] {hash : List Item → H} {rx : Str → Option Hir} {ord : Nfa.Order}
  {ps : List Ast.Prod} {start : Ast.Prod} {g : Grammar} {l : Lalr} {T : ParseGen.Tables} {max : Nat}

theorem gen_fileOk (hE : Emitted hash rx ord ps start g l T max) (hN : TsNames ps) (hR : Readable ps) (hm : 50 ≤ max) :
    FileOk ps (genOf max l T) := by
  have hG := hE.genOk
  refine ⟨hG.symbols, gen_parseOk hE hN hm, ?_, hR.types, ?_, tables_nodup _⟩
  · intro k hk
    have hk : k ∈ T.symbols := hk
    rw [hG.symbols] at hk
    obtain ⟨p, hp, rfl⟩ := List.mem_map.mp hk
    exact ⟨hN.vars p hp, hN.under p hp, hN.numbered p hp⟩
  · intro a ha
    have hT := hE.tables
    simp only [ParseGen.generate, bind, Except.bind, pure, Except.pure] at hT
    cases h1 : ParseGen.actsOf ps with
    | error e => simp [h1] at hT
    | ok as =>
      cases h2 : ParseGen.genProductions l.grammar l.grammar.prods with
      | error e => simp only [h1, h2] at hT; split at hT <;> cases hT
      | ok pr =>
        simp only [h1, h2] at hT
        split at hT
        · cases hT
        split at hT
        · cases hT
        cases hT
        obtain ⟨b, hb, hin, hc, _⟩ := actsFrom_mem h1 a ha
        obtain ⟨p, hp, _, hpb⟩ := ParseGen.mem_bodiesOf hb
        have hw : ∀ s ∈ b.2.inputs, ParseGen.Written s := fun s hs => ParseGen.written hE.gen.expr hE.names.written hp hpb hs
        rw [ParseGen.paramsOf_ok hw] at hin
        have hin : a.inputs = b.2.inputs.map ParseGen.plain := (Except.ok.inj hin).symm
        obtain ⟨e, he, hd⟩ := hR.code p hp b.2 hpb
        refine ⟨e, hc ▸ he, (dataExp_mono fun x hx => ?_).1 e hd⟩
        rcases hx with hx | ⟨q, hq, rfl⟩
        · left
          rwa [ParseGen.validate, hin, bound_plain _ _ _ hw]
        · exact .inr (List.mem_map_of_mem hq)

end

end Verif.Props
