import Verif.Proofs.MiniTs
import Verif.Proofs.TsUtilOk

/-! # The declarations of ts/util.ts compute the functions of `Verif.Model.TsUtil` -/

namespace Verif.MiniTs

variable {U : User} {G : Gen} {α β : Type}

/-- A number literal or `never`. -/
def num? : Option Nat → Ty
  | none => .never
  | some n => .num n

/-- A boolean literal or `never`. -/
def bool? : Option Bool → Ty
  | none => .never
  | some b => .bool b

/-- A tuple or `never`. -/
def tup? : Option (List Ty) → Ty
  | none => .never
  | some l => .tup l

theorem mget_vals [DecidableEq β] (k : β) (f : α → Ty) : ∀ l : List (β × α),
    mget k (l.map fun e => (e.1, f e.2)) = (mget k l).map f
  | [] => rfl
  | e :: l => by
    simp only [List.map_cons, mget]
    by_cases h : k = e.1
    · simp [h]
    · rw [if_neg h, if_neg h, mget_vals k f l]

theorem member_num (k : Nat) : ∀ l : List (Nat × Ty),
    member (.num k) (l.map fun e => (Key.num e.1, false, e.2)) = (mget k l).map fun t => (false, t)
  | [] => rfl
  | e :: l => by
    simp only [List.map_cons, member, mget, Key.num.injEq]
    by_cases h : e.1 = k
    · simp [h]
    · rw [if_neg h, if_neg fun e => h e.symm, member_num k l]

theorem member_str (k : Str) : ∀ l : List (Str × Ty),
    member (.str k) (l.map fun e => (Key.str e.1, false, e.2)) = (mget k l).map fun t => (false, t)
  | [] => rfl
  | e :: l => by
    simp only [List.map_cons, member, mget, Key.str.injEq]
    by_cases h : e.1 = k
    · simp [h]
    · rw [if_neg h, if_neg fun e => h e.symm, member_str k l]

theorem access_objN (l : List (Nat × Ty)) (n : Nat) : access (objN l) (.num n) = some ((mget n l).getD .unknown) := by
  rw [objN, access]
  · simp only [memberAt, memberOr, member_num]
    cases mget n l <;> rfl
  all_goals simp

theorem access_objS (l : List (Str × Ty)) (n : Str) : access (objS l) (.str n) = some ((mget n l).getD .unknown) := by
  rw [objS, access]
  · simp only [memberAt, memberOr, member_str]
    cases mget n l <;> rfl
  all_goals simp

/-- The keys of a table. -/
def keysN (l : List (Nat × Ty)) : Ty := .union (l.map fun e => .num e.1)

/-- The keys of a table. -/
def keysS (l : List (Str × Ty)) : Ty := .union (l.map fun e => .str e.1)

theorem keysOf_objN (l : List (Nat × Ty)) : keysOf (objN l) = some (keysN l) := by
  simp [keysOf, objN, Key.ty, keysN]

theorem keysOf_objS (l : List (Str × Ty)) : keysOf (objS l) = some (keysS l) := by
  simp [keysOf, objS, Key.ty, keysS]

theorem accepts_keysN (n : Nat) : ∀ l : List (Nat × Ty), accepts U (keysN l) (.num n) = (mget n l).isSome
  | [] => by simp [keysN, accepts, lift, acceptsAny, mget]
  | e :: l => by
    have := accepts_keysN n l
    simp only [keysN, accepts, lift] at this
    simp only [keysN, accepts, lift, List.map_cons, acceptsAny, this, mget]
    by_cases h : n = e.1 <;> simp [h]

theorem accepts_keysS (n : Str) : ∀ l : List (Str × Ty), accepts U (keysS l) (.str n) = (mget n l).isSome
  | [] => by simp [keysS, accepts, lift, acceptsAny, mget]
  | e :: l => by
    have := accepts_keysS n l
    simp only [keysS, accepts, lift] at this
    simp only [keysS, accepts, lift, List.map_cons, acceptsAny, this, mget]
    by_cases h : n = e.1 <;> simp [h]

theorem access_tup (ts : List Ty) (n : Nat) : access (.tup ts) (.num n) = some (ts[n]?.getD .undef) := rfl

theorem early_objN (l : List (Nat × Ty)) (b : Bool) : early (objN l) b = none := rfl

theorem early_objS (l : List (Str × Ty)) (b : Bool) : early (objS l) b = none := rfl

theorem early_undef (b : Bool) : early .undef b = none := rfl
theorem lift_undef (f : Ty → Bool) : lift f .undef = f .undef := rfl
theorem early_unknown (b : Bool) : early .unknown b = none := rfl
theorem lift_unknown (f : Ty → Bool) : lift f .unknown = f .unknown := rfl
theorem early_str (s : Str) (b : Bool) : early (.str s) b = none := rfl
theorem lift_str (f : Ty → Bool) (s : Str) : lift f (.str s) = f (.str s) := rfl
theorem early_string (b : Bool) : early .string b = none := rfl
theorem lift_string (f : Ty → Bool) : lift f .string = f .string := rfl
theorem early_template (b : Bool) : early .template b = none := rfl
theorem lift_template (f : Ty → Bool) : lift f .template = f .template := rfl
theorem early_num (n : Nat) (b : Bool) : early (.num n) b = none := rfl
theorem lift_num (f : Ty → Bool) (n : Nat) : lift f (.num n) = f (.num n) := rfl
theorem early_number (b : Bool) : early .number b = none := rfl
theorem lift_number (f : Ty → Bool) : lift f .number = f .number := rfl
theorem early_bool (c : Bool) (b : Bool) : early (.bool c) b = none := rfl
theorem lift_bool (f : Ty → Bool) (c : Bool) : lift f (.bool c) = f (.bool c) := rfl
theorem early_tup (l : List Ty) (b : Bool) : early (.tup l) b = none := rfl
theorem lift_tup (f : Ty → Bool) (l : List Ty) : lift f (.tup l) = f (.tup l) := rfl
theorem early_arr (t : Ty) (b : Bool) : early (.arr t) b = none := rfl
theorem lift_arr (f : Ty → Bool) (t : Ty) : lift f (.arr t) = f (.arr t) := rfl
theorem early_obj (l : List (Key × Bool × Ty)) (b : Bool) : early (.obj l) b = none := rfl
theorem lift_obj (f : Ty → Bool) (l : List (Key × Bool × Ty)) : lift f (.obj l) = f (.obj l) := rfl
theorem early_named (k : Str) (b : Bool) : early (.named k) b = none := rfl
theorem lift_named (f : Ty → Bool) (k : Str) : lift f (.named k) = f (.named k) := rfl
theorem early_never (b : Bool) : early .never b = if b then some (some .never) else none := rfl
theorem lift_never (f : Ty → Bool) : lift f .never = true := rfl
theorem lift_any (f : Ty → Bool) : lift f .any = true := rfl

/-- Evaluates an expression whose parts are known. -/
scoped syntax "ts_eval" (" [" Lean.Parser.Tactic.simpLemma,* "]")? : tactic
macro_rules
  | `(tactic| ts_eval) => `(tactic| ts_eval [])
  | `(tactic| ts_eval [$args,*]) => `(tactic| simp [ev, evs, evMems, mget, naked, isPattern, mat, matTup, matObj,
      matchTmpl, splice, test, accepts, concat, partText, keysOf_objN, keysOf_objS, accepts_keysN,
      accepts_keysS, access_objN, access_objS, mget_vals, access_tup, early_objN, early_objS,
      early_undef, lift_undef, early_unknown, lift_unknown, early_str, lift_str, early_string, lift_string, early_template, lift_template, early_num, lift_num, early_number, lift_number, early_bool, lift_bool, early_tup, lift_tup, early_arr, lift_arr, early_obj, lift_obj, early_named, lift_named, early_never, lift_never, lift_any, $args,*])

/-- A declaration of a file. -/
theorem lim_decl {m m' : Mod} {x : Str} {args : List Ty} (d : List Str × Exp)
    (hd : prog G m x = some ⟨m', d.1, d.2⟩) (hl : d.1.length = args.length) :
    lim U (prog G) m x args = ev U (lim U (prog G) m') (d.1.zip args) d.2 := lim_of hd hl

theorem lim_table {m : Mod} {x : Str} {t : Ty} (hd : prog G m x = some ⟨.util, [], .lit t⟩) :
    lim U (prog G) m x [] = some t := by
  rw [lim_of hd rfl]; simp [ev]

theorem negate_eq (b : Option Bool) : lim U (prog G) .util (name! "Negate") [bool? b] = some (bool? (Ts.negate b)) := by
  rw [lim_decl util.Negate rfl rfl]
  cases b with
  | none => ts_eval [util.Negate, bool?, Ts.negate]
  | some b => cases b <;> ts_eval [util.Negate, bool?, Ts.negate]

theorem reverseImpl_eq : ∀ l st : List Ty,
    lim U (prog G) .util (name! "ReverseImpl") [.tup l, .tup st] = some (.tup (Ts.reverseImpl l st))
  | [], st => by
    rw [lim_decl util.ReverseImpl rfl rfl]
    ts_eval [util.ReverseImpl, Ts.reverseImpl]
  | a :: l, st => by
    have := reverseImpl_eq l (a :: st)
    rw [lim_decl util.ReverseImpl rfl rfl]
    ts_eval [util.ReverseImpl, Ts.reverseImpl, this]

theorem reverse_eq (l : List Ty) : lim U (prog G) .util (name! "Reverse") [.tup l] = some (.tup (Ts.reverse l)) := by
  rw [lim_decl util.Reverse rfl rfl]
  ts_eval [util.Reverse, Ts.reverse, reverseImpl_eq]

theorem isWhitespace_eq (c : Char) :
    lim U (prog G) .util (name! "IsWhitespace") [.str [c]] = some (.bool (Ts.isWhitespace c)) := by
  rw [lim_decl util.IsWhitespace rfl rfl]
  by_cases h1 : c = ' '
  · ts_eval [util.IsWhitespace, Ts.isWhitespace, acceptsAny, h1]
  · by_cases h2 : c = '\n'
    · ts_eval [util.IsWhitespace, Ts.isWhitespace, acceptsAny, h2]
    · ts_eval [util.IsWhitespace, Ts.isWhitespace, acceptsAny, h1, h2]

theorem succTable_eq : lim U (prog G) .util (name! "SuccTable") [] =
    some (objN ((Ts.succTable G.max).map fun e => (e.1, .num e.2))) := lim_table rfl

theorem predTable_eq : lim U (prog G) .util (name! "PredTable") [] =
    some (objN ((Ts.predTable G.max).map fun e => (e.1, .num e.2))) := lim_table rfl

theorem succ_eq (n : Option Nat) : lim U (prog G) .util (name! "Succ") [num? n] = some (num? (Ts.succ G.max n)) := by
  rw [lim_decl util.Succ rfl rfl]
  cases n with
  | none => ts_eval [util.Succ, num?, Ts.succ]
  | some n => cases h : mget n (Ts.succTable G.max) <;> ts_eval [util.Succ, num?, Ts.succ, succTable_eq, h]

theorem pred_eq (n : Option Nat) : lim U (prog G) .util (name! "Pred") [num? n] = some (num? (Ts.pred G.max n)) := by
  rw [lim_decl util.Pred rfl rfl]
  cases n with
  | none => ts_eval [util.Pred, num?, Ts.pred]
  | some n =>
    cases n with
    | zero => ts_eval [util.Pred, num?, Ts.pred]
    | succ n => cases h : mget (n + 1) (Ts.predTable G.max) <;> ts_eval [util.Pred, num?, Ts.pred, predTable_eq, h]

theorem eq_eq (a b : Option Nat) : lim U (prog G) .util (name! "Eq") [num? a, num? b] = some (bool? (Ts.eq a b)) := by
  rw [lim_decl util.Eq rfl rfl]
  cases a with
  | none => ts_eval [util.Eq, num?, Ts.eq, Ts.extendsNum, bool?]
  | some a =>
    cases b with
    | none => ts_eval [util.Eq, num?, Ts.eq, Ts.extendsNum, bool?]
    | some b => by_cases h : a = b <;> ts_eval [util.Eq, num?, Ts.eq, Ts.extendsNum, bool?, h]

theorem num?_pred (n : Nat) : lim U (prog G) .util (name! "Pred") [.num n] = some (num? (Ts.pred G.max (some n))) :=
  pred_eq (some n)

theorem num?_succ (n : Nat) : lim U (prog G) .util (name! "Succ") [.num n] = some (num? (Ts.succ G.max (some n))) :=
  succ_eq (some n)

theorem gtImpl_eq (a b : Option Nat) :
    lim U (prog G) .util (name! "GtImpl") [num? a, num? b] = some (bool? (Ts.gtImpl G.max a b)) := by
  rw [lim_decl util.GtImpl rfl rfl]
  match a, b with
  | a, none => unfold Ts.gtImpl; ts_eval [util.GtImpl, num?, bool?]
  | a, some 0 => unfold Ts.gtImpl; ts_eval [util.GtImpl, num?, bool?]
  | none, some (b + 1) => unfold Ts.gtImpl; ts_eval [util.GtImpl, num?, bool?]
  | some 0, some (b + 1) => unfold Ts.gtImpl; ts_eval [util.GtImpl, num?, bool?]
  | some (a + 1), some (b + 1) =>
    have := gtImpl_eq (Ts.pred G.max (some (a + 1))) (Ts.pred G.max (some (b + 1)))
    unfold Ts.gtImpl
    ts_eval [util.GtImpl, num?_pred, this, show num? (some (a + 1)) = .num (a + 1) from rfl,
      show num? (some (b + 1)) = .num (b + 1) from rfl]
termination_by b.getD 0
decreasing_by exact Ts.pred_lt G.max b

theorem gte_eq (a b : Option Nat) : lim U (prog G) .util (name! "Gte") [num? a, num? b] = some (bool? (Ts.gte G.max a b)) := by
  rw [lim_decl util.Gte rfl rfl]
  match a, b with
  | none, b => ts_eval [util.Gte, num?, bool?, Ts.gte, Ts.extendsNum]
  | some a, none =>
    have := gtImpl_eq (U := U) (G := G) (some a) none
    simp only [num?] at this
    ts_eval [util.Gte, num?, bool?, Ts.gte, Ts.extendsNum, this]
  | some a, some b =>
    have := gtImpl_eq (U := U) (G := G) (some a) (some b)
    simp only [num?] at this
    by_cases h : a = b <;> ts_eval [util.Gte, num?, bool?, Ts.gte, Ts.extendsNum, this, h]

theorem gt_eq (a b : Option Nat) : lim U (prog G) .util (name! "Gt") [num? a, num? b] = some (bool? (Ts.gt G.max a b)) := by
  rw [lim_decl util.Gt rfl rfl]
  match a, b with
  | none, b => ts_eval [util.Gt, num?, bool?, Ts.gt, Ts.extendsNum]
  | some a, none =>
    have := gtImpl_eq (U := U) (G := G) (some a) none
    simp only [num?] at this
    ts_eval [util.Gt, num?, bool?, Ts.gt, Ts.extendsNum, this]
  | some a, some b =>
    have := gtImpl_eq (U := U) (G := G) (some a) (some b)
    simp only [num?] at this
    by_cases h : a = b <;> ts_eval [util.Gt, num?, bool?, Ts.gt, Ts.extendsNum, this, h]

theorem lte_eq (a b : Option Nat) : lim U (prog G) .util (name! "Lte") [num? a, num? b] = some (bool? (Ts.lte G.max a b)) := by
  rw [lim_decl util.Lte rfl rfl]
  match a, b with
  | none, b => ts_eval [util.Lte, num?, bool?, Ts.lte, Ts.extendsNum]
  | some a, none =>
    have := gtImpl_eq (U := U) (G := G) (some a) none
    simp only [num?] at this
    ts_eval [util.Lte, num?, Ts.lte, Ts.extendsNum, this, negate_eq]
  | some a, some b =>
    have := gtImpl_eq (U := U) (G := G) (some a) (some b)
    simp only [num?] at this
    by_cases h : a = b
    · ts_eval [util.Lte, num?, bool?, Ts.lte, Ts.extendsNum, h]
    · ts_eval [util.Lte, num?, Ts.lte, Ts.extendsNum, this, h, negate_eq]

theorem lt_eq (a b : Option Nat) : lim U (prog G) .util (name! "Lt") [num? a, num? b] = some (bool? (Ts.lt G.max a b)) := by
  rw [lim_decl util.Lt rfl rfl]
  match a, b with
  | none, b => ts_eval [util.Lt, num?, bool?, Ts.lt, Ts.extendsNum]
  | some a, none =>
    have := gtImpl_eq (U := U) (G := G) (some a) none
    simp only [num?] at this
    ts_eval [util.Lt, num?, Ts.lt, Ts.extendsNum, this, negate_eq]
  | some a, some b =>
    have := gtImpl_eq (U := U) (G := G) (some a) (some b)
    simp only [num?] at this
    by_cases h : a = b
    · ts_eval [util.Lt, num?, bool?, Ts.lt, Ts.extendsNum, h]
    · ts_eval [util.Lt, num?, Ts.lt, Ts.extendsNum, this, h, negate_eq]

theorem add_eq (a b : Option Nat) : lim U (prog G) .util (name! "Add") [num? a, num? b] = some (num? (Ts.add G.max a b)) := by
  rw [lim_decl util.Add rfl rfl]
  match b with
  | none => unfold Ts.add; ts_eval [util.Add, num?]
  | some 0 => unfold Ts.add; ts_eval [util.Add, num?]
  | some (b + 1) =>
    have := add_eq (Ts.succ G.max a) (Ts.pred G.max (some (b + 1)))
    unfold Ts.add
    ts_eval [util.Add, num?_pred, succ_eq, this, show num? (some (b + 1)) = .num (b + 1) from rfl]
termination_by b.getD 0
decreasing_by exact Ts.pred_lt G.max b

theorem sub_eq (a b : Option Nat) : lim U (prog G) .util (name! "Sub") [num? a, num? b] = some (num? (Ts.sub G.max a b)) := by
  rw [lim_decl util.Sub rfl rfl]
  match b with
  | none => unfold Ts.sub; ts_eval [util.Sub, num?]
  | some 0 => unfold Ts.sub; ts_eval [util.Sub, num?]
  | some (b + 1) =>
    have := sub_eq (Ts.pred G.max a) (Ts.pred G.max (some (b + 1)))
    unfold Ts.sub
    ts_eval [util.Sub, num?_pred, pred_eq, this, show num? (some (b + 1)) = .num (b + 1) from rfl]
termination_by b.getD 0
decreasing_by exact Ts.pred_lt G.max b

theorem popNStack_eq : ∀ (arr : List Ty) (n : Option Nat),
    lim U (prog G) .util (name! "PopNStack") [.tup arr, num? n] = some (tup? (Ts.popNStack G.max arr n))
  | arr, none => by
    rw [lim_decl util.PopNStack rfl rfl]; unfold Ts.popNStack; ts_eval [util.PopNStack, num?, tup?]
  | arr, some 0 => by
    rw [lim_decl util.PopNStack rfl rfl]; unfold Ts.popNStack; ts_eval [util.PopNStack, num?, tup?]
  | [], some (n + 1) => by
    rw [lim_decl util.PopNStack rfl rfl]; unfold Ts.popNStack; ts_eval [util.PopNStack, num?, tup?]
  | a :: arr, some (n + 1) => by
    have := popNStack_eq arr (Ts.pred G.max (some (n + 1)))
    rw [lim_decl util.PopNStack rfl rfl]; unfold Ts.popNStack
    ts_eval [util.PopNStack, num?_pred, this, show num? (some (n + 1)) = .num (n + 1) from rfl]

/-- The result of `PopNStackWithValue`. -/
def pair? : Option (List Ty × List Ty) → Ty
  | none => .never
  | some p => .tup [.tup p.1, .tup p.2]

theorem popNStackWithValueImpl_eq : ∀ (arr : List Ty) (n : Option Nat) (ret : List Ty),
    lim U (prog G) .util (name! "PopNStackWithValueImpl") [.tup arr, num? n, .tup ret] =
      some (pair? (Ts.popNStackWithValueImpl G.max arr n ret))
  | arr, none, ret => by
    rw [lim_decl util.PopNStackWithValueImpl rfl rfl]; unfold Ts.popNStackWithValueImpl
    ts_eval [util.PopNStackWithValueImpl, num?, pair?]
  | arr, some 0, ret => by
    rw [lim_decl util.PopNStackWithValueImpl rfl rfl]; unfold Ts.popNStackWithValueImpl
    ts_eval [util.PopNStackWithValueImpl, num?, pair?]
  | [], some (n + 1), ret => by
    rw [lim_decl util.PopNStackWithValueImpl rfl rfl]; unfold Ts.popNStackWithValueImpl
    ts_eval [util.PopNStackWithValueImpl, num?, pair?]
  | a :: arr, some (n + 1), ret => by
    have := popNStackWithValueImpl_eq arr (Ts.pred G.max (some (n + 1))) (a :: ret)
    rw [lim_decl util.PopNStackWithValueImpl rfl rfl]; unfold Ts.popNStackWithValueImpl
    ts_eval [util.PopNStackWithValueImpl, num?_pred, this, show num? (some (n + 1)) = .num (n + 1) from rfl]

theorem popNStackWithValue_eq (arr : List Ty) (n : Option Nat) :
    lim U (prog G) .util (name! "PopNStackWithValue") [.tup arr, num? n] = some (pair? (Ts.popNStackWithValue G.max arr n)) := by
  rw [lim_decl util.PopNStackWithValue rfl rfl]
  ts_eval [util.PopNStackWithValue, popNStackWithValueImpl_eq, Ts.popNStackWithValue]

/-- The result of `Substring`. -/
def textTy : Ts.Text → Ty
  | .val s => .str s
  | .undefined => .undef
  | .never => .never

theorem cutString_eq : ∀ (str ret : Str) (len i : Option Nat),
    lim U (prog G) .util (name! "CutString") [.str str, .str ret, num? len, num? i] =
      some (textTy (Ts.cutString G.max str ret len i))
  | str, ret, len, none => by
    rw [lim_decl util.CutString rfl rfl]; unfold Ts.cutString
    ts_eval [util.CutString, num?, textTy]
  | [], ret, len, some n => by
    rw [lim_decl util.CutString rfl rfl]; unfold Ts.cutString
    cases len with
    | none => ts_eval [util.CutString, num?, textTy]
    | some m => by_cases h : n = m <;> ts_eval [util.CutString, num?, textTy, h]
  | c :: str, ret, len, some n => by
    have := cutString_eq str (ret ++ [c]) len (Ts.succ G.max (some n))
    rw [lim_decl util.CutString rfl rfl]; unfold Ts.cutString
    cases len with
    | none =>
      simp only [show num? none = .never from rfl] at this ⊢
      ts_eval [util.CutString, show ∀ k, num? (some k) = .num k from fun _ => rfl, textTy, num?_succ, this]
    | some m =>
      simp only [show ∀ k, num? (some k) = .num k from fun _ => rfl] at this ⊢
      by_cases h : n = m
      · ts_eval [util.CutString, textTy, h]
      · ts_eval [util.CutString, num?_succ, h, this]

theorem substringImpl_eq : ∀ (str : Str) (start stop i : Option Nat),
    lim U (prog G) .util (name! "SubstringImpl") [.str str, num? start, num? stop, num? i] =
      some (textTy (Ts.substringImpl G.max str start stop i))
  | str, start, stop, none => by
    rw [lim_decl util.SubstringImpl rfl rfl]; unfold Ts.substringImpl
    ts_eval [util.SubstringImpl, num?, textTy]
  | [], start, stop, some n => by
    have := cutString_eq (U := U) (G := G) [] [] stop (some 0)
    rw [lim_decl util.SubstringImpl rfl rfl]; unfold Ts.substringImpl
    simp only [show ∀ k, num? (some k) = .num k from fun _ => rfl] at this ⊢
    cases start with
    | none => ts_eval [util.SubstringImpl, num?, textTy]
    | some m => by_cases h : n = m <;> ts_eval [util.SubstringImpl, show ∀ k, num? (some k) = .num k from fun _ => rfl, textTy, h, this]
  | c :: str, start, stop, some n => by
    have h0 := cutString_eq (U := U) (G := G) (c :: str) [] stop (some 0)
    have := substringImpl_eq str start (Ts.pred G.max stop) (Ts.succ G.max (some n))
    rw [lim_decl util.SubstringImpl rfl rfl]; unfold Ts.substringImpl
    simp only [show ∀ k, num? (some k) = .num k from fun _ => rfl] at h0 this ⊢
    cases start with
    | none =>
      simp only [show num? none = .never from rfl] at this ⊢
      ts_eval [util.SubstringImpl, pred_eq, num?_succ, this]
    | some m =>
      simp only [show ∀ k, num? (some k) = .num k from fun _ => rfl] at this ⊢
      by_cases h : n = m
      · ts_eval [util.SubstringImpl, h, h0]
      · ts_eval [util.SubstringImpl, pred_eq, num?_succ, h, this]

theorem substring_eq (str : Str) (start stop : Option Nat) :
    lim U (prog G) .util (name! "Substring") [.str str, num? start, num? stop] =
      some (textTy (Ts.substring G.max str start stop)) := by
  have := substringImpl_eq (U := U) (G := G) str start stop (some 0)
  rw [lim_decl util.Substring rfl rfl]
  simp only [show num? (some 0) = .num 0 from rfl] at this
  ts_eval [util.Substring, Ts.substring, this]

end Verif.MiniTs
