import Verif.Proofs.TsInline
import Verif.Proofs.Order
import Verif.Proofs.LexTablesOk
import Verif.Proofs.ScanOk
import Mathlib.Data.List.Nodup

/-! # The files of a project mean what the model says -/

namespace Verif.MiniTs
open Verif.LexGen (digits)
open Verif.Spec (codeFree codeFrees)

/-! ## Two programs with the same values -/

section
variable {U U' : User} {P P' : Prog} {syms : List Str}

/-- The names of the user's types are themselves. -/
def Good (syms : List Str) (m : Mod) (c : Call) : Prop := m = .actions → ∀ k ∈ syms, c k [] = some (.named k)

/-- Declarations with the same values: tables, or bodies that are evaluated alike. -/
def DefRel (U U' : User) (P' : Prog) (syms : List Str) (d d' : Def) : Prop :=
  (d.params = [] ∧ d'.params = [] ∧ ∃ t, d.body = .lit t ∧ ev U' (lim U' P' d'.mod) [] d'.body = some t) ∨
  (d.mod = d'.mod ∧ d.mod ∈ [Mod.util, .lex, .parse, .defs, .actions] ∧ d.params = d'.params ∧
    ∀ c, Good syms d.mod c → ∀ env : Env, env.map (·.1) = d.params → ev U c env d.body = ev U' c env d'.body)

/-- The same for declarations that may be missing. -/
def ORel (U U' : User) (P' : Prog) (syms : List Str) : Option Def → Option Def → Prop
  | none, none => True
  | some d, some d' => DefRel U U' P' syms d d'
  | _, _ => False

theorem zip_keys : ∀ {ps : List Str} {args : List Ty}, ps.length = args.length → (ps.zip args).map (·.1) = ps
  | [], [], _ => rfl
  | p :: ps, a :: args, h => by simp at h; simp [zip_keys h]

variable (hR : ∀ m ∈ [Mod.util, .lex, .parse, .defs, .actions], ∀ x, ORel U U' P' syms (P m x) (P' m x))
  (hg : Good syms .actions (lim U P .actions)) (hg' : Good syms .actions (lim U' P' .actions))
include hR hg hg'

theorem run_le_lim : ∀ (n : Nat), ∀ m ∈ [Mod.util, .lex, .parse, .defs, .actions], ∀ (x : Str) (args : List Ty) (v : Ty),
    run U P n m x args = some v → lim U' P' m x args = some v
  | 0, m, hm, x, args, v, h => by simp [run] at h
  | n + 1, m, hm, x, args, v, h => by
    rw [run] at h
    have hr := hR m hm x
    cases hp : P m x with
    | none => simp [hp] at h
    | some d =>
      cases hp' : P' m x with
      | none => rw [hp, hp'] at hr; exact hr.elim
      | some d' =>
        rw [hp, hp'] at hr
        simp only [hp] at h
        split at h
        · rename_i hl
          rcases hr with ⟨h1, h2, t, h3, h4⟩ | ⟨h1, h2, h3, h4⟩
          · rw [h1] at hl
            obtain rfl : args = [] := List.length_eq_zero_iff.mp hl.symm
            rw [h3, ev] at h
            rw [lim_of hp' (by rw [h2]; rfl), h2]
            exact h4.trans h
          · obtain ⟨k, hk⟩ := ev_ev (c := fun _ => lim U' P' d.mod) (l := run U P n d.mod)
              ⟨fun x a v hv => ⟨0, fun _ _ => run_le_lim n d.mod h2 x a v hv⟩⟩ _ _ _ h
            have := hk k (Nat.le_refl k)
            rw [lim_of hp' (by rw [← h3]; exact hl), ← h1, ← h3, ← this]
            exact (h4 _ (fun hm => by rw [hm]; exact hg' rfl) _ (zip_keys hl)).symm
        · cases h

theorem lim_le_run : ∀ (n : Nat), ∀ m ∈ [Mod.util, .lex, .parse, .defs, .actions], ∀ (x : Str) (args : List Ty) (v : Ty),
    run U' P' n m x args = some v → lim U P m x args = some v
  | 0, m, hm, x, args, v, h => by simp [run] at h
  | n + 1, m, hm, x, args, v, h => by
    have hlim : lim U' P' m x args = some v := lim_iff.mpr ⟨_, h⟩
    rw [run] at h
    have hr := hR m hm x
    cases hp' : P' m x with
    | none => simp [hp'] at h
    | some d' =>
      cases hp : P m x with
      | none => rw [hp, hp'] at hr; exact hr.elim
      | some d =>
        rw [hp, hp'] at hr
        simp only [hp'] at h
        split at h
        · rename_i hl
          rcases hr with ⟨h1, h2, t, h3, h4⟩ | ⟨h1, h2, h3, h4⟩
          · rw [h2] at hl
            obtain rfl : args = [] := List.length_eq_zero_iff.mp hl.symm
            rw [lim_of hp' (by rw [h2]; rfl), h2] at hlim
            have : some t = some v := h4.symm.trans hlim
            cases this
            rw [lim_of hp (by rw [h1]; rfl), h3, ev]
          · obtain ⟨k, hk⟩ := ev_ev (c := fun _ => lim U P d'.mod) (l := run U' P' n d'.mod)
              ⟨fun x a v hv => ⟨0, fun _ _ => lim_le_run n d'.mod (h1 ▸ h2) x a v hv⟩⟩ _ _ _ h
            have := hk k (Nat.le_refl k)
            rw [lim_of hp (by rw [h3]; exact hl), h1, h3, ← this]
            exact h4 _ (fun hm => by rw [← h1, hm]; exact hg rfl) _ (by rw [h3]; exact zip_keys hl)
        · cases h

theorem lim_eq {m : Mod} (hm : m ∈ [Mod.util, .lex, .parse, .defs, .actions]) : lim U P m = lim U' P' m := by
  funext x args
  apply Option.ext
  intro v
  constructor
  · intro h
    obtain ⟨n, hn⟩ := lim_iff.mp h
    exact run_le_lim hR hg hg' n m hm x args v hn
  · intro h
    obtain ⟨n, hn⟩ := lim_iff.mp h
    exact lim_le_run hR hg hg' n m hm x args v hn
end

/-! ## Lists of declarations -/

/-- Lists of declarations with the same values. -/
def LRel (R : Option Def → Option Def → Prop) (l l' : List (Str × Def)) : Prop := ∀ x, R (mget x l) (mget x l')

section
variable {U U' : User} {P' : Prog} {syms : List Str}

theorem ORel.or {a a' b b' : Option Def} (ha : ORel U U' P' syms a a') (hb : ORel U U' P' syms b b') :
    ORel U U' P' syms (a.or b) (a'.or b') := by
  cases a with
  | none =>
    cases a' with
    | none => simpa using hb
    | some _ => exact ha.elim
  | some d =>
    cases a' with
    | none => exact ha.elim
    | some _ => exact ha

theorem LRel.append {a a' b b' : List (Str × Def)} (ha : LRel (ORel U U' P' syms) a a') (hb : LRel (ORel U U' P' syms) b b') :
    LRel (ORel U U' P' syms) (a ++ b) (a' ++ b') := fun x => by
  rw [mget_append, mget_append]
  exact (ha x).or (hb x)

theorem LRel.nil : LRel (ORel U U' P' syms) [] [] := fun _ => trivial

theorem LRel.cons {x : Str} {d d' : Def} {l l' : List (Str × Def)} (hd : DefRel U U' P' syms d d') (h : LRel (ORel U U' P' syms) l l') :
    LRel (ORel U U' P' syms) ((x, d) :: l) ((x, d') :: l') := fun y => by
  simp only [mget]
  by_cases hy : y = x
  · rw [if_pos hy, if_pos hy]; exact hd
  · rw [if_neg hy, if_neg hy]; exact h y

theorem isPrefix_append {p x : Str} (h : p.isPrefixOf x = true) : x = p ++ x.drop p.length := by
  obtain ⟨t, rfl⟩ := List.isPrefixOf_iff_prefix.mp h
  simp

theorem mget_qualify_if (p x : Str) (l : List (Str × Def)) :
    mget x (qualify p l) = if p.isPrefixOf x then mget (x.drop p.length) l else none := by
  by_cases h : p.isPrefixOf x
  · rw [if_pos h]
    conv => lhs; rw [isPrefix_append h]
    exact mget_qualify _ _ _
  · rw [if_neg h]
    apply mget_none
    intro e he hx
    obtain ⟨d, _, rfl⟩ := List.mem_map.mp he
    exact h (by rw [← hx]; exact List.isPrefixOf_iff_prefix.mpr ⟨_, rfl⟩)

theorem LRel.qualify {l l' : List (Str × Def)} (p : Str) (h : LRel (ORel U U' P' syms) l l') :
    LRel (ORel U U' P' syms) (MiniTs.qualify p l) (MiniTs.qualify p l') := fun x => by
  rw [mget_qualify_if, mget_qualify_if]
  split
  · exact h _
  · trivial

theorem LRel.congr {a a' b b' : List (Str × Def)} (h : LRel (ORel U U' P' syms) a a') (h1 : ∀ x, mget x b = mget x a)
    (h2 : ∀ x, mget x b' = mget x a') : LRel (ORel U U' P' syms) b b' := fun x => by rw [h1, h2]; exact h x

theorem mget_comm {l l' : List (Str × Def)} {x : Str} (h : mget x l = none ∨ mget x l' = none) : mget x (l ++ l') = mget x (l' ++ l) := by
  rw [mget_append, mget_append]
  rcases h with h | h <;> rw [h] <;> simp

theorem mget_filter (p : Str → Bool) (x : Str) : ∀ l : List (Str × Def),
    mget x (l.filter fun e => p e.1) = if p x then mget x l else none
  | [] => by simp [mget]
  | e :: l => by
    rw [List.filter_cons]
    by_cases he : p e.1
    · rw [if_pos he, mget, mget, mget_filter p x l]
      by_cases hx : x = e.1
      · subst hx; simp [he]
      · rw [if_neg hx, if_neg hx]
    · rw [if_neg he, mget_filter p x l, mget]
      by_cases hx : x = e.1
      · subst hx; simp [he]
      · rw [if_neg hx]

theorem mget_filters (sel : Str → Str → Bool) (x : Str) (l : List (Str × Def)) : ∀ xs : List Str,
    mget x (xs.flatMap fun y => l.filter fun e => sel y e.1) = if xs.any (fun y => sel y x) then mget x l else none
  | [] => by simp [mget]
  | y :: ys => by
    rw [List.flatMap_cons, mget_append, mget_filter (sel y), mget_filters sel x l ys, List.any_cons]
    by_cases h : sel y x
    · rw [if_pos h]
      simp only [h, Bool.true_or, if_true]
      split <;> cases mget x l <;> simp
    · simp [h]

/-- Declarations without mapping code. -/
theorem declare_rel (hU : U.has = U'.has) {m : Mod} (hm : m ∈ [Mod.util, .lex, .parse, .defs, .actions]) :
    ∀ (l : List (Str × List Str × Exp)), (l.all fun d => codeFree d.2.2) = true →
    LRel (ORel U U' P' syms) (declare m l) (declare m l)
  | [], _ => .nil
  | d :: l, h => by
    simp only [List.all_cons, Bool.and_eq_true] at h
    exact .cons (.inr ⟨rfl, hm, rfl, fun c _ env _ => ev_user hU c _ env h.1⟩) (declare_rel hU hm l h.2)
end

/-! ## Tables written out -/

section
variable {U : User} {c : Call} {env : Env}
mutual
theorem ev_tyExp : ∀ t : Ty, ev U c env (Spec.tyExp t) = some t
  | .tup ts => by rw [Spec.tyExp, ev, evs_tyExps ts]; rfl
  | .obj ms => by rw [Spec.tyExp, ev, evMems_memExps ms]; rfl
  | .never => by simp [Spec.tyExp, ev]
  | .any => by simp [Spec.tyExp, ev]
  | .unknown => by simp [Spec.tyExp, ev]
  | .undef => by simp [Spec.tyExp, ev]
  | .str s => by simp [Spec.tyExp, ev]
  | .string => by simp [Spec.tyExp, ev]
  | .template => by simp [Spec.tyExp, ev]
  | .num n => by simp [Spec.tyExp, ev]
  | .number => by simp [Spec.tyExp, ev]
  | .bool b => by simp [Spec.tyExp, ev]
  | .arr t => by simp [Spec.tyExp, ev]
  | .union t => by simp [Spec.tyExp, ev]
  | .named t => by simp [Spec.tyExp, ev]
theorem evs_tyExps : ∀ ts : List Ty, evs U c env (Spec.tyExps ts) = some ts
  | [] => by simp [Spec.tyExps, evs]
  | t :: ts => by simp [Spec.tyExps, evs, ev_tyExp t, evs_tyExps ts]
theorem evMems_memExps : ∀ ms : List (Key × Bool × Ty), evMems U c env (Spec.memExps ms) = some ms
  | [] => by simp [Spec.memExps, evMems]
  | (k, o, t) :: ms => by simp [Spec.memExps, evMems, ev_tyExp t, evMems_memExps ms]
end

theorem ev_objExps {α : Type} (k : α → Key) (e : α → Exp) (t : α → Ty) : ∀ l : List α,
    (∀ x ∈ l, ev U c env (e x) = some (t x)) →
    evMems U c env (Spec.objExps (l.map fun x => (k x, e x))) = some (l.map fun x => (k x, false, t x))
  | [], _ => rfl
  | x :: l, h => by
    have ih := ev_objExps k e t l fun y hy => h y (List.mem_cons_of_mem _ hy)
    simp only [Spec.objExps] at ih
    simp [Spec.objExps, evMems, h x (List.mem_cons_self ..), ih]

theorem ev_tupExps {α : Type} (e : α → Exp) (t : α → Ty) : ∀ l : List α,
    (∀ x ∈ l, ev U c env (e x) = some (t x)) →
    evs U c env (Spec.tupExps (l.map e)) = some (l.map t)
  | [], _ => rfl
  | x :: l, h => by
    have ih := ev_tupExps e t l fun y hy => h y (List.mem_cons_of_mem _ hy)
    simp only [Spec.tupExps] at ih
    simp [Spec.tupExps, evs, h x (List.mem_cons_self ..), ih]

theorem table_rel {U U' : User} {P' : Prog} {syms : List Str} (m : Mod) (t : Ty) :
    DefRel U U' P' syms ⟨.util, [], .lit t⟩ ⟨m, [], Spec.tyExp t⟩ := .inl ⟨rfl, rfl, t, rfl, ev_tyExp t⟩
end

/-! ## The names of the project -/

/-- What a grammar and the tables must be like for the generated file to mean what the model says. -/
structure FileOk (ps : List Ast.Prod) (G : Gen) : Prop where
  syms : G.parse.symbols = ps.map (·.name)
  parse : ParseOk G
  names : ∀ k ∈ G.parse.symbols, k ∉ [name! "newStack", name! "poppedValues", name! "symbolStack"] ∧
    (∀ m, k ≠ name! "__" ++ m) ∧ ∀ i, k ≠ name! "var" ++ digits i
  types : ∀ p ∈ ps, (Spec.readType p.tsCode).isSome = true
  code : ∀ a ∈ G.parse.acts, ∃ e, Spec.readType a.code = some e ∧
    Spec.dataExp (fun x => x ∈ bound (ParseGen.validate a).1 ∨ x ∈ G.parse.symbols) e
  tokens : (G.lex.tokens.map (·.1)).Nodup

theorem mget_variants (k : Str) (ps : List Ast.Prod) :
    mget k (ParseGen.variants ps) = (ps.reverse.find? fun p => decide (p.name = k)).map (·.tsCode) := by
  have go : ∀ (ps : List Ast.Prod) (m : List (Str × Str)), mget k (ps.foldl (fun m p => minsert p.name p.tsCode m) m) =
      ((ps.reverse.find? fun p => decide (p.name = k)).map (·.tsCode)).or (mget k m) := by
    intro ps
    induction ps with
    | nil => intro m; simp
    | cons p ps ih =>
      intro m
      rw [List.foldl_cons, ih, List.reverse_cons, List.find?_append, mget_minsert]
      cases ps.reverse.find? fun p => decide (p.name = k) with
      | some q => simp
      | none =>
        by_cases h : p.name = k
        · simp [h]
        · simp [h, Ne.symm h]
  rw [ParseGen.variants, go]
  simp [mget]

theorem find_mget {α : Type} (k : Str) : ∀ l : List (Str × α), (l.find? fun e => decide (e.1 = k)) = (mget k l).map fun v => (k, v)
  | [] => rfl
  | e :: l => by
    rw [List.find?_cons, mget, find_mget k l]
    by_cases h : e.1 = k
    · subst h; simp
    · simp [h, Ne.symm h]

theorem mget_map {α β : Type} (f : α → β) (k : Str) : ∀ l : List (Str × α), mget k (l.map fun e => (e.1, f e.2)) = (mget k l).map f
  | [] => rfl
  | e :: l => by
    rw [List.map_cons, mget, mget, mget_map f k l]
    by_cases h : k = e.1
    · simp [h]
    · rw [if_neg h, if_neg h]

section
variable {ps : List Ast.Prod} {G : Gen} (hF : FileOk ps G)
include hF

theorem last_named {k : Str} (hk : k ∈ G.parse.symbols) : ∃ p ∈ ps, p.name = k ∧ ps.reverse.find? (fun p => decide (p.name = k)) = some p := by
  rw [hF.syms] at hk
  obtain ⟨p, hp, rfl⟩ := List.mem_map.mp hk
  cases h : ps.reverse.find? (fun q => decide (q.name = p.name)) with
  | none => exact absurd (List.find?_eq_none.mp h p (List.mem_reverse.mpr hp)) (by simp)
  | some q =>
    have := List.find?_some h
    exact ⟨q, List.mem_reverse.mp (List.mem_of_find?_eq_some h), by simpa using this, rfl⟩

theorem last_none {k : Str} (hk : k ∉ G.parse.symbols) : ps.reverse.find? (fun p => decide (p.name = k)) = none := by
  rw [hF.syms] at hk
  rw [List.find?_eq_none]
  intro p hp
  simp only [decide_eq_true_eq]
  rintro rfl
  exact hk (List.mem_map_of_mem (List.mem_reverse.mp hp))

/-- The types that the file declares are those of the grammar. -/
theorem declaredIn_eq : Spec.TsProject.declaredIn (Spec.genFile ps G) = Spec.declared ps := by
  funext k
  have hb : Spec.TsProject.block (Spec.genFile ps G) "actions".toList =
      ((ParseGen.variants ps).map fun v => (v.1, ([] : List Str), Spec.readD v.2)) ++
      ("EmitProduction".toList, ["prodIdx".toList, "symbolStack".toList], emitExp G.parse.acts) ::
      G.parse.acts.map fun a => (actName a.idx, ["symbolStack".toList], actWith (callWith (Spec.readD a.code) a) a) := rfl
  rw [Spec.TsProject.declaredIn, hb, List.find?_append, find_mget, mget_map (fun c => (([] : List Str), Spec.readD c)), mget_variants, Spec.declared]
  by_cases hk : k ∈ G.parse.symbols
  · obtain ⟨p, hp, hn, hf⟩ := last_named hF hk
    rw [hf]
    obtain ⟨e, he⟩ := Option.isSome_iff_exists.mp (hF.types p hp)
    simp [Spec.readD, he]
  · rw [last_none hF hk]
    simp only [Option.map_none, Option.none_or, Option.bind_none]
    cases hf : List.find? (fun d : Spec.TsProject.Decl => decide (d.1 = k)) (("EmitProduction".toList, ["prodIdx".toList, "symbolStack".toList], emitExp G.parse.acts) ::
      G.parse.acts.map fun a => (actName a.idx, ["symbolStack".toList], actWith (callWith (Spec.readD a.code) a) a)) with
    | none => rfl
    | some d =>
      have hd : d.2.1 ≠ [] := by
        rcases List.mem_cons.mp (List.mem_of_find?_eq_some hf) with rfl | h
        · simp
        · obtain ⟨a, _, rfl⟩ := List.mem_map.mp h
          simp
      simp [hd]

theorem user_has : (Spec.userOf ps).has = (Spec.TsProject.user (Spec.projectOf ps G)).has := by
  rw [Spec.userOf, Spec.TsProject.user]
  simp only [Spec.projectOf, declaredIn_eq hF]
end

open Spec (projectOf)
open Spec.TsProject (names ownNames imported moduleDecls)

section
variable {ps : List Ast.Prod} {G : Gen}

theorem names_util : names (projectOf ps G) .util = declare .util utilDecls ++
    [(name! "SuccTable", ⟨.arith, [], Spec.tyExp (objN ((Ts.succTable G.max).map fun e => (e.1, .num e.2)))⟩),
     (name! "PredTable", ⟨.arith, [], Spec.tyExp (objN ((Ts.predTable G.max).map fun e => (e.1, .num e.2)))⟩)] := by
  have h1 : ownNames (projectOf ps G) .util = declare .util utilDecls := by simp [ownNames, projectOf]
  rw [names, h1]
  congr 1

theorem own_states : ownNames (projectOf ps G) .states = declare .states (Spec.statesFile G.lex).decls := by
  simp [ownNames, projectOf, Spec.statesFile]

/-- The three tables of the lexer. -/
def stateNames (ps : List Ast.Prod) (G : Gen) : List (Str × Def) :=
  ["States".toList, "Tokens".toList, "DFAtoNFA".toList].flatMap fun x =>
    (ownNames (projectOf ps G) .states).filter fun e => decide (e.1 = x) || (x ++ ['.']).isPrefixOf e.1

theorem names_lex : names (projectOf ps G) .lex = declare .lex lexDecls ++
    ([(name! "Characters", ⟨.chars, [], Spec.tyExp (objN (G.chars.map fun e => (e.2, .str [Char.ofNat e.1])))⟩),
     (name! "CharTable", ⟨.chars, [], Spec.tyExp (objS (G.chars.map fun e => ([Char.ofNat e.1], .num e.2)))⟩)] ++
    (stateNames ps G ++ qualify (name! "U.") (declare .util utilDecls))) := by
  have h1 : ownNames (projectOf ps G) .lex = declare .lex lexDecls := by simp [ownNames, projectOf]
  rw [names, h1]
  congr 1

/-- The module `type_defs` of the file. -/
def fileDefs (ps : List Ast.Prod) (G : Gen) : List (Str × Def) :=
  moduleDecls .defs (Spec.TsProject.block (Spec.genFile ps G) "type_defs".toList)

/-- The module `actions` of the file. -/
def fileActions (ps : List Ast.Prod) (G : Gen) : List (Str × Def) :=
  moduleDecls .actions (Spec.TsProject.block (Spec.genFile ps G) "actions".toList)

theorem own_gen : ownNames (projectOf ps G) .gen =
    qualify (name! "type_defs.") (fileDefs ps G) ++ qualify (name! "actions.") (fileActions ps G) := by
  rw [ownNames]
  show [] ++ List.flatMap _ [_, _] = _
  rw [List.nil_append, List.flatMap_cons, List.flatMap_cons, List.flatMap_nil, List.append_nil]
  rfl

theorem names_gen : names (projectOf ps G) .gen =
    (qualify (name! "type_defs.") (fileDefs ps G) ++ qualify (name! "actions.") (fileActions ps G)) ++
      (qualify (name! "U.") (declare .util utilDecls) ++ qualify (name! "L.") (declare .lex lexDecls)) := by
  rw [names, own_gen]
  congr 1

theorem names_parse (x : Str) : mget x (names (projectOf ps G) .parse) = mget x (declare .parse parseDecls ++ names (projectOf ps G) .gen) := by
  have h3 : ownNames (projectOf ps G) .parse = declare .parse parseDecls := by simp [ownNames, projectOf]
  have h4 : names (projectOf ps G) .parse = declare .parse parseDecls ++
      (((["type_defs".toList, "actions".toList] : List Str).flatMap fun y =>
        (ownNames (projectOf ps G) .gen).filter fun e => (fun y z => decide (z = y) || (y ++ ['.']).isPrefixOf z) y e.1) ++
      (qualify (name! "U.") (declare .util utilDecls) ++ qualify (name! "L.") (declare .lex lexDecls))) := by
    rw [names, h3]
    congr 1
  rw [h4, mget_append, mget_append _ (declare .parse parseDecls), names_gen]
  congr 1
  rw [mget_append, mget_append _ (qualify _ _ ++ qualify _ _) (qualify _ _ ++ qualify _ _)]
  congr 1
  rw [mget_filters (fun y z => decide (z = y) || (y ++ ['.']).isPrefixOf z), own_gen]
  split
  · rfl
  · rename_i hx
    rw [mget_append, mget_qualify_if, mget_qualify_if]
    simp only [List.any_cons, List.any_nil, Bool.or_false, Bool.or_eq_true, not_or] at hx
    have e1 : "type_defs".toList ++ ['.'] = name! "type_defs." := rfl
    have e2 : "actions".toList ++ ['.'] = name! "actions." := rfl
    rw [e1, e2] at hx
    rw [if_neg hx.1.2, if_neg hx.2.2]
    rfl

end

/-! ## The tables of the lexer -/

section
variable {ps : List Ast.Prod} {G : Gen} {U U' : User} {syms : List Str}

theorem digits_head (i : Nat) (c : Char) (h : c.toNat < 48 ∨ 57 < c.toNat) (s : Str) : digits i ≠ c :: s := by
  intro hd
  have := Spec.digits_chars i c (by rw [hd]; exact List.mem_cons_self ..)
  simp only [Spec.isDigit, decide_eq_true_eq] at this
  have h1 : '0'.toNat = 48 := rfl
  have h2 : '9'.toNat = 57 := rfl
  omega

theorem tokenDef_ne {i : Nat} {x : Str} (h : x ∈ [name! "States", name! "Tokens", name! "DFAtoNFA"]) : "TokenDef".toList ++ digits i ≠ x := by
  intro he
  simp only [List.mem_cons, List.not_mem_nil, or_false] at h
  rcases h with rfl | rfl | rfl <;> simp at he

theorem state_ne {i : Nat} {x : Str} (h : x ∈ [name! "States", name! "Tokens", name! "DFAtoNFA"]) : "State".toList ++ digits i ≠ x := by
  intro he
  simp only [List.mem_cons, List.not_mem_nil, or_false] at h
  rcases h with rfl | rfl | rfl
  · simp at he
    exact digits_head i 's' (by decide) [] he
  · simp at he
  · simp at he

/-- The declarations of the file with the states of the lexer. -/
theorem states_decls : declare .states (Spec.statesFile G.lex).decls =
    ((G.lex.tokens.map fun e => ("TokenDef".toList ++ digits e.1, (⟨.states, [], Spec.tyExp (tokenDefTy e.2)⟩ : Def))) ++
    ([(name! "Tokens", ⟨.states, [], .obj (Spec.objExps (G.lex.tokens.map fun e => (.num e.1, .ref ("TokenDef".toList ++ digits e.1) .nil)))⟩)] ++
    ((G.lex.states.zipIdx.map fun s => ("State".toList ++ digits s.2, ⟨.states, [], Spec.tyExp (stateTy s.1)⟩)) ++
    [(name! "States", ⟨.states, [], .tup (Spec.tupExps ((List.range G.lex.states.length).map fun i => .ref ("State".toList ++ digits i) .nil))⟩),
     (name! "DFAtoNFA", ⟨.states, [], Spec.tyExp (objN (G.lex.dfaToNfa.map fun e => (e.1, nums e.2)))⟩)]))) := by
  simp only [declare, Spec.statesFile, List.map_append, List.map_map, List.append_assoc]
  rfl

theorem states_dot {x : Str} (hx : '.' ∈ x) : mget x (declare .states (Spec.statesFile G.lex).decls) = none := by
  rw [states_decls]
  apply mget_none
  intro e he hex
  subst hex
  simp only [List.mem_append, List.mem_map, List.mem_cons, List.not_mem_nil, or_false] at he
  rcases he with ⟨q, _, rfl⟩ | rfl | ⟨q, _, rfl⟩ | rfl | rfl
  · rcases List.mem_append.mp hx with h | h
    · exact absurd h (by decide)
    · exact digits_noDot _ h
  · simp at hx
  · rcases List.mem_append.mp hx with h | h
    · exact absurd h (by decide)
    · exact digits_noDot _ h
  · simp at hx
  · simp at hx

theorem mget_tokenDefs_none {x : Str} (h : x ∈ [name! "States", name! "Tokens", name! "DFAtoNFA"]) :
    mget x (G.lex.tokens.map fun e => ("TokenDef".toList ++ digits e.1, (⟨.states, [], Spec.tyExp (tokenDefTy e.2)⟩ : Def))) = none := by
  apply mget_none
  intro e he
  obtain ⟨q, _, rfl⟩ := List.mem_map.mp he
  exact tokenDef_ne h

theorem mget_states_none {x : Str} (h : x ∈ [name! "States", name! "Tokens", name! "DFAtoNFA"]) :
    mget x (G.lex.states.zipIdx.map fun s => ("State".toList ++ digits s.2, (⟨.states, [], Spec.tyExp (stateTy s.1)⟩ : Def))) = none := by
  apply mget_none
  intro e he
  obtain ⟨q, _, rfl⟩ := List.mem_map.mp he
  exact state_ne h

theorem prog_states (x : Str) : Spec.TsProject.prog (projectOf ps G) .states x = mget x (declare .states (Spec.statesFile G.lex).decls) := by
  show mget x (names (projectOf ps G) .states) = _
  rw [names, own_states]
  show mget x (_ ++ []) = _
  rw [List.append_nil]

theorem tokenDef_eq (ht : (G.lex.tokens.map (·.1)).Nodup) {e : Nat × Str × Bool} (he : e ∈ G.lex.tokens) :
    lim U' (Spec.TsProject.prog (projectOf ps G)) .states ("TokenDef".toList ++ digits e.1) [] = some (tokenDefTy e.2) := by
  have hp : Spec.TsProject.prog (projectOf ps G) .states ("TokenDef".toList ++ digits e.1) =
      some ⟨.states, [], Spec.tyExp (tokenDefTy e.2)⟩ := by
    rw [prog_states, states_decls, mget_append]
    have : mget ("TokenDef".toList ++ digits e.1)
        (G.lex.tokens.map fun e => ("TokenDef".toList ++ digits e.1, (⟨.states, [], Spec.tyExp (tokenDefTy e.2)⟩ : Def))) =
        some ⟨.states, [], Spec.tyExp (tokenDefTy e.2)⟩ := by
      apply mget_of_mem
      · rw [List.map_map]
        have : ((·.1) ∘ fun e : Nat × Str × Bool => ("TokenDef".toList ++ digits e.1, (⟨.states, [], Spec.tyExp (tokenDefTy e.2)⟩ : Def))) =
            (fun n => "TokenDef".toList ++ digits n) ∘ (·.1) := rfl
        rw [this, ← List.map_map]
        exact List.Nodup.map (fun a b h => Spec.digits_inj (List.append_cancel_left h)) ht
      · exact List.mem_map_of_mem he
    rw [this]
    rfl
  rw [lim_of hp rfl]
  exact ev_tyExp _

theorem state_eq {i : Nat} {s : LexGen.State} (hs : G.lex.states[i]? = some s) :
    lim U' (Spec.TsProject.prog (projectOf ps G)) .states ("State".toList ++ digits i) [] = some (stateTy s) := by
  have hp : Spec.TsProject.prog (projectOf ps G) .states ("State".toList ++ digits i) =
      some ⟨.states, [], Spec.tyExp (stateTy s)⟩ := by
    rw [prog_states, states_decls, mget_append]
    have h1 : mget ("State".toList ++ digits i)
        (G.lex.tokens.map fun e => ("TokenDef".toList ++ digits e.1, (⟨.states, [], Spec.tyExp (tokenDefTy e.2)⟩ : Def))) = none := by
      apply mget_none
      intro e he hx
      obtain ⟨q, _, rfl⟩ := List.mem_map.mp he
      simp at hx
    have h2 : mget ("State".toList ++ digits i)
        (G.lex.states.zipIdx.map fun s => ("State".toList ++ digits s.2, (⟨.states, [], Spec.tyExp (stateTy s.1)⟩ : Def))) =
        some ⟨.states, [], Spec.tyExp (stateTy s)⟩ := by
      apply mget_of_mem
      · rw [List.map_map]
        have : ((·.1) ∘ fun s : LexGen.State × Nat => ("State".toList ++ digits s.2, (⟨.states, [], Spec.tyExp (stateTy s.1)⟩ : Def))) =
            (fun n => "State".toList ++ digits n) ∘ (·.2) := rfl
        rw [this, ← List.map_map, List.zipIdx_map_snd]
        exact List.Nodup.map (fun a b h => Spec.digits_inj (List.append_cancel_left h)) List.nodup_range'
      · exact List.mem_map.mpr ⟨(s, i), List.mk_mem_zipIdx_iff_getElem?.mpr hs, rfl⟩
    have h3 : mget ("State".toList ++ digits i) ([(name! "Tokens", (⟨.states, [], .obj (Spec.objExps (G.lex.tokens.map fun e => (.num e.1, .ref ("TokenDef".toList ++ digits e.1) .nil)))⟩ : Def))]) = none := by
      apply mget_none
      intro e he hx
      simp only [List.mem_cons, List.not_mem_nil, or_false] at he
      subst he
      simp at hx
    rw [h1, Option.none_or, mget_append, h3, Option.none_or, mget_append, h2]
    rfl
  rw [lim_of hp rfl]
  exact ev_tyExp _

theorem states_rel (ht : (G.lex.tokens.map (·.1)).Nodup) : LRel (ORel U U' (Spec.TsProject.prog (projectOf ps G)) syms)
    [table (name! "States") (.tup (G.lex.states.map stateTy)),
     table (name! "Tokens") (objN (G.lex.tokens.map fun e => (e.1, tokenDefTy e.2))),
     table (name! "DFAtoNFA") (objN (G.lex.dfaToNfa.map fun e => (e.1, nums e.2)))] (stateNames ps G) := by
  intro x
  rw [stateNames, own_states, mget_filters (fun y z => decide (z = y) || (y ++ ['.']).isPrefixOf z)]
  by_cases hx : x ∈ [name! "States", name! "Tokens", name! "DFAtoNFA"]
  · have hsel : (["States".toList, "Tokens".toList, "DFAtoNFA".toList].any fun y => decide (x = y) || (y ++ ['.']).isPrefixOf x) = true := by
      simp only [List.mem_cons, List.not_mem_nil, or_false] at hx
      rcases hx with rfl | rfl | rfl <;> decide
    rw [if_pos hsel, states_decls, mget_append, mget_tokenDefs_none hx, Option.none_or, mget_append]
    simp only [List.mem_cons, List.not_mem_nil, or_false] at hx
    rcases hx with rfl | rfl | rfl
    · rw [mget_append, mget_states_none (by simp)]
      refine .inl ⟨rfl, rfl, _, rfl, ?_⟩
      simp only [ev]
      rw [ev_tupExps (t := fun i => ((G.lex.states[i]?.map stateTy).getD .never))]
      · simp only [Option.map_some, Option.some.injEq, Ty.tup.injEq]
        apply List.ext_getElem?
        intro i
        simp only [List.getElem?_map]
        by_cases hi : i < G.lex.states.length
        · simp [hi]
        · simp [hi]
      · intro i hi
        obtain ⟨s, hs⟩ : ∃ s, G.lex.states[i]? = some s := ⟨_, List.getElem?_eq_getElem (List.mem_range.mp hi)⟩
        rw [hs, ev, mget]
        exact state_eq hs
    · refine .inl ⟨rfl, rfl, _, rfl, ?_⟩
      simp only [ev]
      rw [ev_objExps (t := fun e : Nat × Str × Bool => tokenDefTy e.2)]
      · simp [objN]
      · intro e he
        rw [ev, mget]
        exact tokenDef_eq ht he
    · rw [mget_append, mget_states_none (by simp)]
      exact table_rel _ _
  · have h1 : mget x [table (name! "States") (.tup (G.lex.states.map stateTy)),
     table (name! "Tokens") (objN (G.lex.tokens.map fun e => (e.1, tokenDefTy e.2))),
     table (name! "DFAtoNFA") (objN (G.lex.dfaToNfa.map fun e => (e.1, nums e.2)))] = none := by
      apply mget_none
      intro e he hex
      simp only [List.mem_cons, List.not_mem_nil, or_false] at he
      apply hx
      rcases he with rfl | rfl | rfl <;> simp [← hex, table]
    rw [h1]
    split
    · rename_i hsel
      rw [states_dot]
      · trivial
      · simp only [List.any_cons, List.any_nil, Bool.or_false, Bool.or_eq_true, decide_eq_true_eq] at hsel
        have key : ∀ {p : Str}, (p ++ ['.']).isPrefixOf x = true → '.' ∈ x := fun h => by
          rw [isPrefix_append h]; simp
        rcases hsel with (h | h) | (h | h) | (h | h)
        · exact absurd (by rw [h]; decide) hx
        · exact key h
        · exact absurd (by rw [h]; decide) hx
        · exact key h
        · exact absurd (by rw [h]; decide) hx
        · exact key h
    · trivial
end

/-! ## The generated parser -/

theorem codeFree_symbols (ks : List Str) : codeFrees (symbolAlts ks) = true := by
  induction ks with
  | nil => rfl
  | cons k ks ih => simp [symbolAlts, codeFrees, codeFree, ih]

theorem codeFree_emit (as : List ParseGen.Act) : codeFree (emitExp as) = true := by
  induction as with
  | nil => rfl
  | cons a as ih => simp [emitExp, codeFrees, codeFree, ih]

section
variable {ps : List Ast.Prod} {G : Gen}

theorem fileDefs_eq : fileDefs ps G =
  [(name! "Symbol", ⟨.defs, [], symbolExp G.parse.symbols⟩),
   (name! "Token", ⟨.defs, [], tokenAlts⟩),
   (name! "Tokens", ⟨.defs, [], Spec.tyExp (objN (G.tokens.zipIdx.map fun e => (e.2, tokenTy e.1)))⟩),
   (name! "Production", ⟨.defs, [], productionExp⟩),
   (name! "Productions", ⟨.defs, [], Spec.tyExp (objN (G.parse.productions.zipIdx.map fun e => (e.2, productionTy e.1)))⟩),
   (name! "Action", ⟨.defs, [], Spec.tyExp (objN (G.parse.action.map fun r => (r.1, objN (r.2.map fun e => (e.1, actionTy e.2)))))⟩),
   (name! "Goto", ⟨.defs, [], Spec.tyExp (objN (G.parse.goto.map fun r => (r.1, objS (r.2.map fun e => (e.1, .num e.2)))))⟩),
   (name! "TokenKindToIdx", ⟨.defs, [], Spec.tyExp (objS (G.parse.kindToIdx.map fun e => (e.1, .num e.2)))⟩)] := rfl

theorem fileActions_eq : fileActions ps G =
    ((ParseGen.variants ps).map fun v => (v.1, (⟨.actions, [], .lit (.named v.1)⟩ : Def))) ++
    ((name! "EmitProduction", ⟨.actions, [name! "prodIdx", name! "symbolStack"], emitExp G.parse.acts⟩) ::
      G.parse.acts.map fun a => (actName a.idx, ⟨.actions, [name! "symbolStack"], actWith (callWith (Spec.readD a.code) a) a⟩)) := by
  have hb : Spec.TsProject.block (Spec.genFile ps G) "actions".toList =
      ((ParseGen.variants ps).map fun v => (v.1, ([] : List Str), Spec.readD v.2)) ++
      (name! "EmitProduction", [name! "prodIdx", name! "symbolStack"], emitExp G.parse.acts) ::
      G.parse.acts.map fun a => (actName a.idx, [name! "symbolStack"], actWith (callWith (Spec.readD a.code) a) a) := rfl
  rw [fileActions, hb, moduleDecls, declare, List.map_map, List.map_append, List.map_map, List.map_cons, List.map_map]
  rfl

variable (hF : FileOk ps G)
include hF

theorem mget_fileTypes (x : Str) : mget x ((ParseGen.variants ps).map fun v => (v.1, (⟨.actions, [], .lit (.named v.1)⟩ : Def))) =
    if x ∈ G.parse.symbols then some ⟨.actions, [], .lit (.named x)⟩ else none := by
  have : ∀ l : List (Str × Str), mget x (l.map fun v => (v.1, (⟨.actions, [], .lit (.named v.1)⟩ : Def))) =
      (mget x l).map fun _ => ⟨.actions, [], .lit (.named x)⟩ := by
    intro l
    induction l with
    | nil => rfl
    | cons e l ih =>
      rw [List.map_cons, mget, mget, ih]
      by_cases h : x = e.1
      · simp [h]
      · rw [if_neg h, if_neg h]
  rw [this, mget_variants]
  by_cases hk : x ∈ G.parse.symbols
  · obtain ⟨p, hp, hn, hf⟩ := last_named hF hk
    rw [hf, if_pos hk]; rfl
  · rw [last_none hF hk, if_neg hk]; rfl

theorem mget_emitActs {x : Str} (hx : x ∈ G.parse.symbols) (f : ParseGen.Act → Def) (d : Def) :
    mget x ((name! "EmitProduction", d) :: G.parse.acts.map fun a => (actName a.idx, f a)) = none := by
  apply mget_none
  intro e he hex
  subst hex
  rcases List.mem_cons.mp he with rfl | h
  · exact hF.parse.noEmit hx
  · obtain ⟨a, _, rfl⟩ := List.mem_map.mp h
    exact hF.parse.noAction _ hx

theorem good_file {U' : User} : Good G.parse.symbols .actions (lim U' (Spec.TsProject.prog (projectOf ps G)) .actions) := by
  intro _ k hk
  have hp : Spec.TsProject.prog (projectOf ps G) .actions k = some ⟨.actions, [], .lit (.named k)⟩ := by
    show mget k (fileActions ps G ++ _) = _
    rw [mget_append, fileActions_eq, mget_append, mget_fileTypes hF, if_pos hk]
    rfl
  rw [lim_of hp rfl]
  simp [ev]

omit hF in
theorem mget_symbolTables (x : Str) : ∀ l : List Str, mget x (l.map fun k => table k (.named k)) =
    if x ∈ l then some ⟨.util, [], .lit (.named x)⟩ else none
  | [] => by simp [mget]
  | k :: l => by
    rw [List.map_cons, table, mget, mget_symbolTables x l]
    by_cases h : x = k
    · simp [h]
    · simp [h]

theorem good_model {U : User} : Good G.parse.symbols .actions (lim U (prog G) .actions) := by
  intro _ k hk
  have hp : prog G .actions k = some ⟨.util, [], .lit (.named k)⟩ := by
    show mget k (actionsNames G ++ _) = _
    rw [mget_append, actionsNames, mget_append, mget_emitActs hF hk (fun a => ⟨.actions, [name! "symbolStack"], actExp a⟩), mget_symbolTables, if_pos hk]
    rfl
  rw [lim_of hp rfl]
  simp [ev]

theorem inferNames_no {k : Str} (hk : k ∈ G.parse.symbols) : ∀ (is : List ParseGen.Param) (i : Nat), k ∉ inferNames i is
  | [], i => by simp [inferNames]
  | p :: is, i => by
    have h1 := (hF.names k hk).2.1
    have h2 := (hF.names k hk).2.2
    cases p with
    | named n q =>
      rw [inferNames, List.mem_cons, not_or]
      exact ⟨h1 n, inferNames_no hk is i⟩
    | nonTerm s =>
      rw [inferNames, List.mem_cons, not_or]
      · exact ⟨h2 i, inferNames_no hk is (i + 1)⟩
      · simp
    | strLit s =>
      rw [inferNames, List.mem_cons, not_or]
      · exact ⟨h2 i, inferNames_no hk is (i + 1)⟩
      · simp
    | regex s =>
      rw [inferNames, List.mem_cons, not_or]
      · exact ⟨h2 i, inferNames_no hk is (i + 1)⟩
      · simp

variable {U' : User} {P' : Prog} (hU : (Spec.userOf ps).has = U'.has)
include hU

theorem act_rel {a : ParseGen.Act} (ha : a ∈ G.parse.acts) : DefRel (Spec.userOf ps) U' P' G.parse.symbols
    ⟨.actions, [name! "symbolStack"], actExp a⟩
    ⟨.actions, [name! "symbolStack"], actWith (callWith (Spec.readD a.code) a) a⟩ := by
  refine .inr ⟨rfl, by simp, rfl, fun c hc env henv => ?_⟩
  refine act_congr hU henv fun env henv => ?_
  obtain ⟨e, he, hd⟩ := hF.code a ha
  have := code_congr (U' := U') hF.syms (hc rfl) (fun k hk => ⟨inferNames_no hF hk _ _, (hF.names k hk).1⟩) he hd henv
  simp only [callExp, callWith, ev, evs, evMems] at this ⊢
  rw [this]

theorem actions_rel : LRel (ORel (Spec.userOf ps) U' P' G.parse.symbols) (actionsNames G) (fileActions ps G) := by
  have hacts : ∀ l : List ParseGen.Act, (∀ a ∈ l, a ∈ G.parse.acts) → LRel (ORel (Spec.userOf ps) U' P' G.parse.symbols)
      (l.map fun a => (actName a.idx, ⟨.actions, [name! "symbolStack"], actExp a⟩))
      (l.map fun a => (actName a.idx, ⟨.actions, [name! "symbolStack"], actWith (callWith (Spec.readD a.code) a) a⟩)) := by
    intro l
    induction l with
    | nil => exact fun _ => .nil
    | cons a l ih =>
      exact fun h => .cons (act_rel hF hU (h a (List.mem_cons_self ..))) (ih fun b hb => h b (List.mem_cons_of_mem _ hb))
  have h1 : LRel (ORel (Spec.userOf ps) U' P' G.parse.symbols) (G.parse.symbols.map fun k => table k (.named k))
      ((ParseGen.variants ps).map fun v => (v.1, (⟨.actions, [], .lit (.named v.1)⟩ : Def))) := by
    intro x
    rw [mget_symbolTables, mget_fileTypes hF]
    by_cases hx : x ∈ G.parse.symbols
    · rw [if_pos hx, if_pos hx]
      exact .inl ⟨rfl, rfl, _, rfl, by simp [ev]⟩
    · rw [if_neg hx, if_neg hx]; trivial
  have h2 : LRel (ORel (Spec.userOf ps) U' P' G.parse.symbols)
      ((name! "EmitProduction", ⟨.actions, [name! "prodIdx", name! "symbolStack"], emitExp G.parse.acts⟩) ::
        G.parse.acts.map fun a => (actName a.idx, ⟨.actions, [name! "symbolStack"], actExp a⟩))
      ((name! "EmitProduction", ⟨.actions, [name! "prodIdx", name! "symbolStack"], emitExp G.parse.acts⟩) ::
        G.parse.acts.map fun a => (actName a.idx, ⟨.actions, [name! "symbolStack"], actWith (callWith (Spec.readD a.code) a) a⟩)) :=
    .cons (.inr ⟨rfl, by simp, rfl, fun c _ env _ => ev_user hU c _ env (codeFree_emit _)⟩) (hacts _ fun _ h => h)
  rw [fileActions_eq]
  refine (h1.append h2).congr (fun x => ?_) fun x => rfl
  rw [actionsNames]
  apply mget_comm
  by_cases hx : x ∈ G.parse.symbols
  · exact .inl (mget_emitActs hF hx (fun a => ⟨.actions, [name! "symbolStack"], actExp a⟩) _)
  · exact .inr (by rw [mget_symbolTables, if_neg hx])

omit hF in
theorem defs_rel : LRel (ORel (Spec.userOf ps) U' P' G.parse.symbols) (defsNames G) (fileDefs ps G) := by
  rw [fileDefs_eq, defsNames]
  refine .cons (.inr ⟨rfl, by simp, rfl, fun c _ env _ => ev_user hU c _ env ?_⟩) (.cons (.inr ⟨rfl, by simp, rfl, fun c _ env _ => ev_user hU c _ env rfl⟩)
    (.cons (table_rel _ _) (.cons (.inr ⟨rfl, by simp, rfl, fun c _ env _ => ev_user hU c _ env rfl⟩) (.cons (table_rel _ _)
    (.cons (table_rel _ _) (.cons (table_rel _ _) (.cons (table_rel _ _) .nil)))))))
  simp [symbolExp, codeFree, codeFrees, codeFree_symbols]

theorem gen_rel : LRel (ORel (Spec.userOf ps) U' P' G.parse.symbols) (genScope G) (names (projectOf ps G) .gen) := by
  rw [names_gen]
  have hu : LRel (ORel (Spec.userOf ps) U' P' G.parse.symbols) (declare .util utilDecls) (declare .util utilDecls) :=
    declare_rel hU (by simp) _ (by decide +kernel)
  have hl : LRel (ORel (Spec.userOf ps) U' P' G.parse.symbols) (declare .lex lexDecls) (declare .lex lexDecls) :=
    declare_rel hU (by simp) _ (by decide +kernel)
  refine ((((defs_rel hU).qualify _).append ((actions_rel hF hU).qualify _)).append ((hu.qualify _).append (hl.qualify _))).congr
    (fun x => ?_) fun x => rfl
  rw [genScope, List.append_assoc]
  apply mget_comm
  simp only [mget_append, mget_qualify_if]
  cases x with
  | nil => exact .inl rfl
  | cons c x =>
    by_cases h1 : c = 'U'
    · subst h1; exact .inr rfl
    · by_cases h2 : c = 'L'
      · subst h2; exact .inr rfl
      · left
        have e1 : ([('U' : Char), '.']).isPrefixOf (c :: x) = false := by simp [List.isPrefixOf, Ne.symm h1]
        have e2 : ([('L' : Char), '.']).isPrefixOf (c :: x) = false := by simp [List.isPrefixOf, Ne.symm h2]
        rw [e1, e2]; rfl
end

section
variable {ps : List Ast.Prod} {G : Gen} (hF : FileOk ps G)
include hF

theorem project_rel : ∀ m ∈ [Mod.util, .lex, .parse, .defs, .actions], ∀ x,
    ORel (Spec.userOf ps) (Spec.TsProject.user (projectOf ps G)) (Spec.TsProject.prog (projectOf ps G)) G.parse.symbols
      (prog G m x) (Spec.TsProject.prog (projectOf ps G) m x) := by
  have hU := user_has hF
  intro m hm x
  simp only [List.mem_cons, List.not_mem_nil, or_false] at hm
  rcases hm with rfl | rfl | rfl | rfl | rfl
  · show ORel _ _ _ _ (mget x (utilScope G)) (mget x (names (projectOf ps G) .util))
    rw [names_util]
    exact (declare_rel hU (by simp) _ (by decide +kernel)).append (.cons (table_rel _ _) (.cons (table_rel _ _) .nil)) x
  · show ORel _ _ _ _ (mget x (lexScope G)) (mget x (names (projectOf ps G) .lex))
    rw [names_lex, lexScope, lexNames, List.append_assoc]
    exact (declare_rel hU (by simp) _ (by decide +kernel)).append
      ((LRel.cons (table_rel _ _) (.cons (table_rel _ _) .nil)).append
        ((states_rel hF.tokens).append ((declare_rel hU (by simp) _ (by decide +kernel)).qualify _))) x
  · show ORel _ _ _ _ (mget x (declare .parse parseDecls ++ genScope G)) (mget x (names (projectOf ps G) .parse))
    rw [names_parse]
    exact (declare_rel hU (by simp) _ (by decide +kernel)).append (gen_rel hF hU) x
  · exact (defs_rel hU).append (gen_rel hF hU) x
  · exact (actions_rel hF hU).append (gen_rel hF hU) x

/-- The program read from the files is the program of the model. -/
theorem project_lim {m : Mod} (hm : m ∈ [Mod.util, .lex, .parse, .defs, .actions]) :
    lim (Spec.userOf ps) (prog G) m = lim (Spec.TsProject.user (projectOf ps G)) (Spec.TsProject.prog (projectOf ps G)) m :=
  lim_eq (project_rel hF) (good_model hF) (good_file hF) hm

theorem denotes_iff {m : Mod} (hm : m ∈ [Mod.util, .lex, .parse, .defs, .actions]) {e : Exp} (he : codeFree e = true) {t : Ty} :
    Spec.TsProject.Denotes (projectOf ps G) m e t ↔ Spec.TypeIs (Spec.userOf ps) G m e t := by
  rw [Spec.TsProject.Denotes, Spec.TypeIs]
  have key : ∀ (U : User) (P : Prog), (∃ n, ev U (run U P n m) [] e = some t) ↔ ev U (lim U P m) [] e = some t := by
    intro U P
    constructor
    · rintro ⟨n, hn⟩
      obtain ⟨k, hk⟩ := ev_ev (c := fun _ => lim U P m) (l := run U P n m)
        ⟨fun x a v hv => ⟨0, fun _ _ => lim_iff.mpr ⟨n, hv⟩⟩⟩ _ _ _ hn
      exact hk k (Nat.le_refl k)
    · intro h
      obtain ⟨n, hn⟩ := ev_ev (settles_lim P m) _ _ _ h
      exact ⟨n, hn n (Nat.le_refl n)⟩
  rw [key, key, project_lim hF hm, ev_user (user_has hF) _ _ _ he]
end

end Verif.MiniTs
