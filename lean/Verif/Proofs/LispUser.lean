import Verif.Proofs.TsUserOk
import Verif.Spec.Lisp
import Verif.Spec.TsType
import Verif.Props.FrontEnd
import Verif.Tests.TsFiles

/-! # The types and the mapping code of basic_lisp.tlalr -/

namespace Verif.Props
open Verif Spec MiniTs

/-- Is this what the text says? -/
def readsAs (text : Str) (e : Exp) : Bool :=
  match readType text with
  | some e' => Tests.TsFiles.same e' e
  | none => false

theorem readsAs_eq {text : Str} {e : Exp} (h : readsAs text e = true) : readType text = some e := by
  unfold readsAs at h
  cases hr : readType text with
  | none => simp [hr] at h
  | some e' => rw [hr] at h; rw [Tests.TsFiles.same_eq _ _ h]

/-- A member. -/
local macro "m!" s:str e:term:max es:term:max : term => `(Exps.cons (.member (.str ($s : String).toList) false) $e $es)

/-- A literal. -/
local macro "s!" s:str : term => `(Exp.lit (.str ($s : String).toList))

/-- A name. -/
local macro "x!" s:str : term => `(Exp.ref ($s : String).toList .nil)

set_option maxRecDepth 20000

theorem read_list : readType "{ kind: \"SExpr\", exprs: exprs }".toList =
    some (.obj (m! "kind" (s! "SExpr") (m! "exprs" (x! "exprs") .nil))) := readsAs_eq (by decide +kernel)
theorem read_cons : readType "[eee, ...es]".toList = some (.tup (.cons .elem (x! "eee") (.cons .spread (x! "es") .nil))) :=
  readsAs_eq (by decide +kernel)
theorem read_one : readType "[eee]".toList = some (.tup (.cons .elem (x! "eee") .nil)) := readsAs_eq (by decide +kernel)
theorem read_sexpr : readType "{ kind: \"sexpr\", sexpr: sexpr }".toList =
    some (.obj (m! "kind" (s! "sexpr") (m! "sexpr" (x! "sexpr") .nil))) := readsAs_eq (by decide +kernel)
theorem read_symbol : readType "{ kind: \"symbol\", value: str }".toList =
    some (.obj (m! "kind" (s! "symbol") (m! "value" (x! "str") .nil))) := readsAs_eq (by decide +kernel)
theorem read_int : readType "{ kind: \"int\", value: int }".toList =
    some (.obj (m! "kind" (s! "int") (m! "value" (x! "int") .nil))) := readsAs_eq (by decide +kernel)
theorem read_SExpr : readType "{ kind: \"SExpr\", exprs: Exprs }".toList =
    some (.obj (m! "kind" (s! "SExpr") (m! "exprs" (x! "Exprs") .nil))) := readsAs_eq (by decide +kernel)
theorem read_Exprs : readType "Expr[]".toList = some (.arr (x! "Expr")) := readsAs_eq (by decide +kernel)
theorem read_Expr : readType
    "{ kind: \"symbol\", value: \"add\" } | { kind: \"int\", value: string } | { kind: \"sexpr\", sexpr: SExpr }".toList =
    some (.union (.cons .elem (.obj (m! "kind" (s! "symbol") (m! "value" (s! "add") .nil)))
      (.cons .elem (.obj (m! "kind" (s! "int") (m! "value" (.lit .string) .nil)))
      (.cons .elem (.obj (m! "kind" (s! "sexpr") (m! "sexpr" (x! "SExpr") .nil))) .nil)))) := readsAs_eq (by decide +kernel)



theorem declared_eq {ps : List Ast.Prod} {k c : Str} {e : Exp}
    (h : (ps.reverse.find? fun p => decide (p.name = k)).map (·.tsCode) = some c) (hr : readType c = some e) :
    declared ps k = declTy e := by
  obtain ⟨p, h1, rfl⟩ := Option.map_eq_some_iff.mp h
  simp [declared, h1, hr]

theorem decl_SExpr : declared lispAst "SExpr".toList =
    some (Lisp.record [("kind", .str "SExpr".toList), ("exprs", .named "Exprs".toList)]) := by
  rw [declared_eq (by decide +kernel) read_SExpr]
  simp only [declTy, declMems, Lisp.record, Option.map_some, Option.bind_some, List.map_cons, List.map_nil]

theorem decl_Exprs : declared lispAst "Exprs".toList = some (.arr (.named "Expr".toList)) := by
  rw [declared_eq (by decide +kernel) read_Exprs]
  simp only [declTy, Option.map_some]

theorem decl_Expr : declared lispAst "Expr".toList =
    some (.union [Lisp.record [("kind", .str "symbol".toList), ("value", .str "add".toList)],
      Lisp.record [("kind", .str "int".toList), ("value", .string)],
      Lisp.record [("kind", .str "sexpr".toList), ("sexpr", .named "SExpr".toList)]]) := by
  rw [declared_eq (by decide +kernel) read_Expr]
  simp only [declTy, declMems, declTys, Lisp.record, Option.map_some, Option.bind_some, List.map_cons, List.map_nil]

/-- The types of basic_lisp.tlalr. -/
noncomputable def lispUser : User := userOf lispAst

theorem code_list (v : Ty) : lispUser.code "{ kind: \"SExpr\", exprs: exprs }".toList [("exprs".toList, v)] =
    some (Lisp.record [("kind", .str "SExpr".toList), ("exprs", v)]) := by
  simp only [lispUser, userOf, read_list, Option.bind_some]
  simp [ev, evMems, mget, Lisp.record]
theorem code_cons (v : Ty) (vs : List Ty) : lispUser.code "[eee, ...es]".toList [("eee".toList, v), ("es".toList, .tup vs)] =
    some (.tup (v :: vs)) := by
  simp only [lispUser, userOf, read_cons, Option.bind_some]
  simp [ev, evs, mget, splice]
theorem code_one (v : Ty) : lispUser.code "[eee]".toList [("eee".toList, v)] = some (.tup [v]) := by
  simp only [lispUser, userOf, read_one, Option.bind_some]
  simp [ev, evs, mget]
theorem code_sexpr (v : Ty) : lispUser.code "{ kind: \"sexpr\", sexpr: sexpr }".toList [("sexpr".toList, v)] =
    some (Lisp.record [("kind", .str "sexpr".toList), ("sexpr", v)]) := by
  simp only [lispUser, userOf, read_sexpr, Option.bind_some]
  simp [ev, evMems, mget, Lisp.record]
theorem code_symbol (v : Ty) : lispUser.code "{ kind: \"symbol\", value: str }".toList [("str".toList, v)] =
    some (Lisp.record [("kind", .str "symbol".toList), ("value", v)]) := by
  simp only [lispUser, userOf, read_symbol, Option.bind_some]
  simp [ev, evMems, mget, Lisp.record]
theorem code_int (v : Ty) : lispUser.code "{ kind: \"int\", value: int }".toList [("int".toList, v)] =
    some (Lisp.record [("kind", .str "int".toList), ("value", v)]) := by
  simp only [lispUser, userOf, read_int, Option.bind_some]
  simp [ev, evMems, mget, Lisp.record]

theorem has_SExpr {v : Ty} (h : Has lispAst "Exprs".toList v) :
    Has lispAst "SExpr".toList (Lisp.record [("kind", .str "SExpr".toList), ("exprs", v)]) := by
  obtain ⟨n, hn⟩ := h.within
  refine has_of decl_SExpr (n := n) ?_ (by simp [Lisp.record])
  have hn := hn n (Nat.le_refl n)
  simp [Lisp.record] at hn ⊢
  rw [accepts]
  simp only [lift, acceptsObj, member]
  simp [accepts, lift] at hn ⊢
  exact hn

theorem has_sexpr {v : Ty} (h : Has lispAst "SExpr".toList v) :
    Has lispAst "Expr".toList (Lisp.record [("kind", .str "sexpr".toList), ("sexpr", v)]) := by
  obtain ⟨n, hn⟩ := h.within
  refine has_of decl_Expr (n := n) ?_ (by simp [Lisp.record])
  have hn := hn n (Nat.le_refl n)
  simp [Lisp.record] at hn ⊢
  rw [accepts]
  simp only [lift, acceptsAny, Bool.or_eq_true]
  refine .inr (.inr (.inl ?_))
  rw [accepts]
  simp only [lift, acceptsObj, member]
  simp [accepts, lift] at hn ⊢
  exact hn

theorem has_symbol : Has lispAst "Expr".toList (Lisp.record [("kind", .str "symbol".toList), ("value", .str "add".toList)]) := by
  refine has_of decl_Expr (n := 0) ?_ (by simp [Lisp.record])
  simp [accepts, lift, acceptsAny, acceptsObj, member, Lisp.record]

theorem has_int (w : Str) : Has lispAst "Expr".toList (Lisp.record [("kind", .str "int".toList), ("value", .str w)]) := by
  refine has_of decl_Expr (n := 0) ?_ (by simp [Lisp.record])
  simp [accepts, lift, acceptsAny, acceptsObj, member, Lisp.record]

/-- What is known of the values of a symbol. -/
def LispValue : Sym → Ty → Prop
  | .nonTerm k, v => Has lispAst k v ∧ (k = "Exprs".toList → ∃ us, v = .tup us)
  | .strLit s, v => v = .str s
  | .regex _, v => ∃ w, v = .str w
  | _, _ => False

theorem lisp_step : ∀ p ∈ lispAst, ∀ b ∈ p.bodies, ∀ vs, List.Forall₂ LispValue (b.inputs.map Ast.InSym.lower) vs →
    ∃ v, lispUser.code b.mapping (bindings b.inputs vs) = some v ∧ LispValue (.nonTerm p.name) v := by
  intro p hp b hb vs hvs
  simp only [lispAst, List.mem_cons, List.not_mem_nil, or_false] at hp
  rcases hp with rfl | rfl | rfl <;> simp only [List.mem_cons, List.not_mem_nil, or_false] at hb
  · subst hb
    cases hvs with
    | cons h1 hvs =>
      cases hvs with
      | cons h2 hvs =>
        cases hvs with
        | cons h3 hvs =>
          cases hvs
          simp only [bindings]
          exact ⟨_, code_list _, has_SExpr h2.1, fun h => absurd h (by decide)⟩
  · rcases hb with rfl | rfl
    · cases hvs with
      | cons h1 hvs =>
        cases hvs with
        | @cons _ v2 _ _ h2 hvs =>
          cases hvs
          simp only [bindings]
          obtain ⟨us, rfl⟩ := h2.2 rfl
          refine ⟨_, code_cons _ _, ?_, fun _ => ⟨_, rfl⟩⟩
          rw [has_arr decl_Exprs]
          have h2 := (has_arr decl_Exprs us).mp h2.1
          intro x hx
          rcases List.mem_cons.mp hx with rfl | hx
          · exact h1.1
          · exact h2 x hx
    · cases hvs with
      | cons h1 hvs =>
        cases hvs
        simp only [bindings]
        refine ⟨_, code_one _, ?_, fun _ => ⟨_, rfl⟩⟩
        rw [has_arr decl_Exprs]
        intro x hx
        rcases List.mem_cons.mp hx with rfl | hx
        · exact h1.1
        · simp at hx
  · rcases hb with rfl | rfl | rfl
    · cases hvs with
      | cons h1 hvs =>
        cases hvs
        simp only [bindings]
        exact ⟨_, code_sexpr _, has_sexpr h1.1, fun h => absurd h (by decide)⟩
    · cases hvs with
      | cons h1 hvs =>
        cases hvs
        simp only [bindings]
        cases h1
        exact ⟨_, code_symbol _, has_symbol, fun h => absurd h (by decide)⟩
    · cases hvs with
      | cons h1 hvs =>
        cases hvs
        simp only [bindings]
        obtain ⟨w, rfl⟩ := h1
        exact ⟨_, code_int _, has_int w, fun h => absurd h (by decide)⟩

theorem forall₂_of_get {α β : Type} {R : α → β → Prop} : ∀ {a : List α} {b : List β}, a.length = b.length →
    (∀ (i : Nat) x y, a[i]? = some x → b[i]? = some y → R x y) → List.Forall₂ R a b
  | [], [], _, _ => .nil
  | x :: a, y :: b, hl, h => .cons (h 0 x y rfl rfl)
    (forall₂_of_get (by simpa using hl) fun i x y hx hy => h (i + 1) x y (by simpa using hx) (by simpa using hy))

theorem lisp_occurs {s : Sym} {v : Ty} (h : Occurs (semOf lispUser) lispAst s v) : LispValue s v := by
  induction h with
  | strLit => exact rfl
  | regex => exact ⟨_, rfl⟩
  | @nonTerm p b vs v hp hb hl _ hc ih =>
    obtain ⟨u, h1, h2⟩ := lisp_step p hp b hb vs (forall₂_of_get (by simpa using hl.symm) ih)
    obtain rfl : v = u := Option.some.inj (hc.symm.trans h1)
    exact h2

/-- The mapping code of basic_lisp.tlalr has the declared types. -/
theorem lisp_typed : WellTyped (semOf lispUser) lispAst := by
  intro p hp b hb vs hvs
  obtain ⟨v, h1, h2⟩ := lisp_step p hp b hb vs (hvs.imp fun _ _ => lisp_occurs)
  exact ⟨v, h1, h2.1⟩

end Verif.Props
