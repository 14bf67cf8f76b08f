import Verif.Proofs.TsItemRules
import Verif.Proofs.TsScanLits
import Verif.Proofs.CharsTextOk

/-! # The tables of the lexer, the characters and the numbers, read as TypeScript -/

namespace Verif.Spec.TsProject
open Verif MiniTs TsSyntax LexGen

/-! ## Lists -/

/-- Lists of words with commas between them. -/
def commasW : List (List Word) → List Word
  | [] => []
  | [a] => a
  | a :: b :: l => a ++ .punct ',' :: commasW (b :: l)

theorem scan_join {α : Type} {f : α → Str} {m : α → Mode} {pre fin : α → List Word} {sep close : Str} {m' : Mode}
    {cl : List Word} (hf : ∀ a out, TsSyntax.scanFrom (at_ out .between) (f a) = at_ (out ++ pre a) (m a))
    (hs : ∀ a out, TsSyntax.scanFrom (at_ out (m a)) sep = at_ (out ++ (fin a ++ [.punct ','])) .between)
    (hc : ∀ a out, TsSyntax.scanFrom (at_ out (m a)) close = at_ (out ++ (fin a ++ cl)) m')
    (h0 : ∀ out, TsSyntax.scanFrom (at_ out .between) close = at_ (out ++ cl) m') : ∀ (l : List α) (out : List Word),
    TsSyntax.scanFrom (TsSyntax.scanFrom (at_ out .between) (join sep (l.map f))) close =
      at_ (out ++ (commasW (l.map fun a => pre a ++ fin a) ++ cl)) m'
  | [], out => by
    simp only [List.map_nil, join, commasW]
    exact h0 out
  | [a], out => by
    simp only [List.map_cons, List.map_nil, join, commasW]
    rw [hf, hc]
    simp
  | a :: b :: l, out => by
    have := scan_join hf hs hc h0 (b :: l)
    simp only [List.map_cons, join, commasW] at this ⊢
    rw [TsSyntax.scanFrom_append, TsSyntax.scanFrom_append, hf, hs, this]
    simp

theorem scan_numList {sep close : Str} {m' : Mode} {cl : List Word}
    (hs : ∀ n out, TsSyntax.scanFrom (at_ out (.num n)) sep = at_ (out ++ [.num n, .punct ',']) .between)
    (hc : ∀ n out, TsSyntax.scanFrom (at_ out (.num n)) close = at_ (out ++ (.num n :: cl)) m')
    (h0 : ∀ out, TsSyntax.scanFrom (at_ out .between) close = at_ (out ++ cl) m') (l : List Nat) (out : List Word) :
    TsSyntax.scanFrom (TsSyntax.scanFrom (at_ out .between) (join sep (l.map digits))) close =
      at_ (out ++ (commasW (l.map fun n => [.num n]) ++ cl)) m' := by
  have := scan_join (f := digits) (m := fun n => .num n) (pre := fun _ => []) (fin := fun n => [.num n])
    (sep := sep) (close := close) (m' := m') (cl := cl)
    (fun n out => by rw [TsSyntax.scan_digits, List.append_nil]) (fun n out => hs n out) (fun n out => hc n out) h0 l out
  simpa using this

/-- The words `w` are an element of a tuple. -/
def ElW (w : List Word) (t : Exp) : Prop :=
  ∀ c r, c = ',' ∨ c = ']' → elemStart (w ++ .punct c :: r) = true ∧ Rd TsSyntax.type (w ++ .punct c :: r) t (.punct c :: r)

theorem rd_commas {α : Type} {w : α → List Word} {t : α → Exp} {r : List Word} : ∀ {l : List α}, (∀ a ∈ l, ElW (w a) (t a)) →
    Rd elems (commasW (l.map w) ++ .punct ']' :: r) (tupExps (l.map t)) r
  | [], _ => rd_elems_nil
  | [a], h => by
    have := h a (by simp) ']' r (.inr rfl)
    exact rd_elems this.2 this.1 rd_elems_nil
  | a :: b :: l, h => by
    have h1 := h a (by simp) ',' (commasW ((b :: l).map w) ++ .punct ']' :: r) (.inl rfl)
    have h2 := rd_commas (l := b :: l) (r := r) fun x hx => h x (by simp [hx])
    have e : commasW ((a :: b :: l).map w) ++ .punct ']' :: r = w a ++ .punct ',' :: (commasW ((b :: l).map w) ++ .punct ']' :: r) := by
      simp [commasW]
    rw [e]
    exact rd_elems h1.2 h1.1 (rd_elems_comma h2)

theorem el_num (n : Nat) : ElW [.num n] (.lit (.num n)) := by
  rintro c r (rfl | rfl) <;> exact ⟨rfl, rd_prim rd_num rfl rfl rfl⟩

/-- Members one after the other. -/
theorem rd_members {α : Type} {w : α → List Word} {k : α → Key} {t : α → Exp} {r : List Word} : ∀ {l : List α},
    (∀ a ∈ l, ∀ r es rest, ends r = true → Rd members r es rest →
      ends (w a ++ r) = true ∧ Rd members (w a ++ r) (.cons (.member (k a) false) (t a) es) rest) →
    ends (l.flatMap w ++ .punct '}' :: r) = true ∧
      Rd members (l.flatMap w ++ .punct '}' :: r) (objExps (l.map fun a => (k a, t a))) r
  | [], _ => ⟨rfl, rd_mems_nil⟩
  | a :: l, h => by
    have h2 := rd_members (l := l) (r := r) fun x hx => h x (by simp [hx])
    rw [List.flatMap_cons, List.append_assoc]
    exact h a (by simp) _ _ _ h2.1 h2.2

/-- Declarations one after the other. -/
theorem rd_decls {α : Type} {w : α → List Word} {d : α → Decl} {r rest : List Word} {ds : List Decl} (hr : ends r = true)
    (hd : Rd aliases r ds rest) : ∀ {l : List α},
    (∀ a ∈ l, ∀ r ds, ends r = true → Rd aliases r ds rest → ends (w a ++ r) = true ∧ Rd aliases (w a ++ r) (d a :: ds) rest) →
    ends (l.flatMap w ++ r) = true ∧ Rd aliases (l.flatMap w ++ r) (l.map d ++ ds) rest
  | [], _ => ⟨hr, hd⟩
  | a :: l, h => by
    have h2 := rd_decls hr hd (l := l) fun x hx => h x (by simp [hx])
    rw [List.flatMap_cons, List.append_assoc]
    exact h a (by simp) _ _ h2.1 h2.2

theorem tyExps_map {α : Type} (l : List α) (t : α → Ty) : tyExps (l.map t) = tupExps (l.map fun a => tyExp (t a)) := by
  induction l with
  | nil => rfl
  | cons a l ih => simp only [List.map_cons, tyExps, ih]; rfl

theorem memExps_map {α : Type} (l : List α) (k : α → Key) (t : α → Ty) :
    memExps (l.map fun a => (k a, false, t a)) = objExps (l.map fun a => (k a, tyExp (t a))) := by
  induction l with
  | nil => rfl
  | cons a l ih => simp only [List.map_cons, memExps, ih]; rfl

theorem tyExp_objN {α : Type} (l : List α) (k : α → Nat) (t : α → Ty) :
    tyExp (objN (l.map fun a => (k a, t a))) = .obj (objExps (l.map fun a => (.num (k a), tyExp (t a)))) := by
  simp only [objN, tyExp, List.map_map]
  exact congrArg _ (memExps_map l (fun a => .num (k a)) t)

theorem tyExp_objS {α : Type} (l : List α) (k : α → Str) (t : α → Ty) :
    tyExp (objS (l.map fun a => (k a, t a))) = .obj (objExps (l.map fun a => (.str (k a), tyExp (t a)))) := by
  simp only [objS, tyExp, List.map_map]
  exact congrArg _ (memExps_map l (fun a => .str (k a)) t)

theorem tyExp_nums (l : List Nat) : tyExp (nums l) = .tup (tupExps (l.map fun n => .lit (.num n))) := by
  simp only [nums, tyExp, tyExps_map]

theorem rd_bool (b : Bool) {r : List Word} (hr : ends r = true) (hr' : noPunct '<' r = true) :
    Rd TsSyntax.type (.id (boolText b) :: r) (.lit (.bool b)) r := by
  have h : (keyword (boolText b)).getD (.ref (boolText b) .nil) = .lit (.bool b) := by
    cases b
    · have : keyword (boolText false) = some (.lit (.bool false)) := by unfold keyword; rfl
      rw [this]; rfl
    · have : keyword (boolText true) = some (.lit (.bool true)) := by unfold keyword; rfl
      rw [this]; rfl
  have := rd_word (x := boolText b) hr'
  rw [h] at this
  refine rd_prim this ?_ rfl hr
  cases b <;> rfl

theorem rd_nums (l : List Nat) {r : List Word} (hr : ends r = true) :
    Rd TsSyntax.type (.punct '[' :: (commasW (l.map fun n => [.num n]) ++ .punct ']' :: r)) (tyExp (nums l)) r := by
  rw [tyExp_nums]
  exact rd_prim (rd_tup (rd_commas fun n _ => el_num n)) rfl rfl hr

/-! ## The tables of the lexer -/

def tokenDefW (e : Nat × Str × Bool) : List Word :=
  [.id "type".toList, .id ("TokenDef".toList ++ digits e.1), .punct '=', .punct '{', .id "kind".toList, .punct ':', .str e.2.1,
    .punct ',', .id "hasValue".toList, .punct ':', .id (boolText e.2.2), .punct '}']

theorem scan_bool (b : Bool) (out : List Word) : TsSyntax.scanFrom (at_ out .between) (boolText b) = at_ out (wd (boolText b)) := by
  cases b <;> simp only [boolText, if_true, if_false, Bool.false_eq_true] <;> ts_lits

theorem scan_tokenDef {e : Nat × Str × Bool} (h : Plain2 e.2.1) (out : List Word) :
    TsSyntax.scanFrom (at_ out .between) (tokenDefText e) = at_ (out ++ tokenDefW e) .between := by
  have h1 : ∀ out, TsSyntax.scanFrom (at_ out (qt '"' [])) e.2.1 = at_ out (qt '"' e.2.1) := fun out => TsSyntax.scan_plain2 _ [] out h
  unfold tokenDefText tokenDefW
  ts_lits
  simp only [h1]
  ts_lits
  simp only [scan_bool]
  ts_lits

def tokensMemberW (e : Nat × Str × Bool) : List Word :=
  [.num e.1, .punct ':', .id ("TokenDef".toList ++ digits e.1), .punct ';']

theorem scan_tokensMember (e : Nat × Str × Bool) (out : List Word) :
    TsSyntax.scanFrom (at_ out .between) (tokensMemberText e) = at_ (out ++ tokensMemberW e) .between := by
  unfold tokensMemberText tokensMemberW
  ts_lits

def labelW (l : Nat × Nat) : List Word :=
  [.punct '{', .id "from".toList, .punct ':', .num l.1, .punct ',', .id "to".toList, .punct ':', .num l.2, .punct '}']

theorem scan_label (l : Nat × Nat) (out : List Word) :
    TsSyntax.scanFrom (at_ out .between) (labelText l) = at_ (out ++ labelW l) .between := by
  unfold labelText labelW
  ts_lits

def stateW (p : State × Nat) : List Word :=
  [.id "type".toList, .id (stateName p.2), .punct '=', .punct '{', .id "to".toList, .punct ':', .punct '['] ++
    (commasW (p.1.to.map fun n => [.num n]) ++ ([.punct ']', .punct ',', .id "labels".toList, .punct ':', .punct '['] ++
    (commasW (p.1.labels.map labelW) ++ [.punct ']', .punct ',', .id "accepting".toList, .punct ':',
      .id (boolText p.1.accepting), .punct '}'])))

theorem scan_state (p : State × Nat) (out : List Word) :
    TsSyntax.scanFrom (at_ out .between) (stateText p) = at_ (out ++ stateW p) .between := by
  unfold stateText stateW stateName
  ts_lits
  rw [scan_numList (cl := [.punct ']', .punct ',', .id "labels".toList, .punct ':', .punct '['])
    (m' := .between) (fun n out => by ts_lits) (fun n out => by ts_lits) (fun out => by ts_lits)]
  rw [scan_join (f := labelText) (m := fun _ => .between) (pre := labelW) (fin := fun _ => [])
    (m' := .between) (cl := [.punct ']', .punct ',', .id "accepting".toList, .punct ':'])
    (fun l out => scan_label l out) (fun n out => by ts_lits) (fun n out => by ts_lits) (fun out => by ts_lits)]
  simp only [scan_bool]
  ts_lits

def dfaMemberW (e : Nat × List Nat) : List Word :=
  [.num e.1, .punct ':', .punct '['] ++ (commasW (e.2.map fun n => [.num n]) ++ [.punct ']', .punct ','])

theorem scan_dfaMember (e : Nat × List Nat) (out : List Word) :
    TsSyntax.scanFrom (at_ out .between) (dfaMemberText e) = at_ (out ++ dfaMemberW e) .between := by
  unfold dfaMemberText dfaMemberW
  ts_lits
  rw [scan_numList (cl := [.punct ']', .punct ',']) (m' := .between) (fun n out => by ts_lits)
    (fun n out => by ts_lits) (fun out => by ts_lits)]
  ts_lits

def lexW (t : Tables) : List Word :=
  t.tokens.flatMap tokenDefW ++
    ([.id "export".toList, .id "type".toList, .id "Tokens".toList, .punct '=', .punct '{'] ++
    (t.tokens.flatMap tokensMemberW ++ ([.punct '}'] ++
    (t.states.zipIdx.flatMap stateW ++
    ([.id "export".toList, .id "type".toList, .id "States".toList, .punct '=', .punct '['] ++
    (commasW ((List.range t.states.length).map fun i => [.id (stateName i)]) ++
    ([.punct ']', .punct ';'] ++
    ([.id "export".toList, .id "type".toList, .id "DFAtoNFA".toList, .punct '=', .punct '{'] ++
    (t.dfaToNfa.flatMap dfaMemberW ++ [.punct '}'])))))))))

theorem scan_lexText {t : Tables} (h : ∀ e ∈ t.tokens, Plain2 e.2.1) :
    TsSyntax.scanFrom (at_ [] .between) t.text = at_ (lexW t) .between := by
  unfold Tables.text lexW headerText
  ts_lits
  rw [TsSyntax.scan_flatMap (g := tokenDefW) (fun e he out => scan_tokenDef (h e he) out)]
  ts_lits
  rw [TsSyntax.scan_flatMap (g := tokensMemberW) (fun e he out => scan_tokensMember e out)]
  ts_lits
  rw [TsSyntax.scan_flatMap (g := stateW) (fun e he out => scan_state e out)]
  ts_lits
  rw [scan_join (f := stateName) (m := fun i => wd (stateName i)) (pre := fun _ => []) (fin := fun i => [.id (stateName i)])
    (m' := .between) (cl := [.punct ']', .punct ';'])
    (fun i out => by unfold stateName; ts_lits) (fun n out => by ts_lits) (fun n out => by ts_lits)
    (fun out => by ts_lits)]
  ts_lits
  rw [TsSyntax.scan_flatMap (g := dfaMemberW) (fun e he out => scan_dfaMember e out)]
  ts_lits

theorem keyword_upper {c : Char} {s : Str} (h : c ≠ 'n' ∧ c ≠ 'a' ∧ c ≠ 'u' ∧ c ≠ 's' ∧ c ≠ 'b' ∧ c ≠ 't' ∧ c ≠ 'f') :
    keyword (c :: s) = none := by
  obtain ⟨h1, h2, h3, h4, h5, h6, h7⟩ := h
  have e1 : ¬(c :: s = "never".toList) := fun e => h1 (List.cons.inj e).1
  have e2 : ¬(c :: s = "any".toList) := fun e => h2 (List.cons.inj e).1
  have e3 : ¬(c :: s = "undefined".toList) := fun e => h3 (List.cons.inj e).1
  have e4 : ¬(c :: s = "string".toList) := fun e => h4 (List.cons.inj e).1
  have e5 : ¬(c :: s = "number".toList) := fun e => h1 (List.cons.inj e).1
  have e6 : ¬(c :: s = "boolean".toList) := fun e => h5 (List.cons.inj e).1
  have e7 : ¬(c :: s = "true".toList) := fun e => h6 (List.cons.inj e).1
  have e8 : ¬(c :: s = "false".toList) := fun e => h7 (List.cons.inj e).1
  simp only [keyword, if_neg e1, if_neg e2, if_neg e3, if_neg e4, if_neg e5, if_neg e6, if_neg e7, if_neg e8]

theorem noPrefix_upper {c : Char} {s : Str} {r : List Word} (h : c ≠ 'k' ∧ c ≠ 'i') : noPrefix (.id (c :: s) :: r) = true := by
  obtain ⟨h1, h2⟩ := h
  have e1 : c :: s ≠ "keyof".toList := fun e => h1 (List.cons.inj e).1
  have e2 : c :: s ≠ "infer".toList := fun e => h2 (List.cons.inj e).1
  simp only [noPrefix, decide_eq_true e1, decide_eq_true e2, Bool.and_self]

theorem rd_tokenDefRef (n : Nat) {r : List Word} (hr : ends r = true) (hr' : noPunct '<' r = true) :
    Rd TsSyntax.type (.id ("TokenDef".toList ++ digits n) :: r) (.ref ("TokenDef".toList ++ digits n) .nil) r :=
  rd_prim (rd_ref (keyword_upper (c := 'T') (by decide)) hr') (noPrefix_upper (c := 'T') (by decide)) rfl hr

theorem rd_stateRef (n : Nat) {r : List Word} (hr : ends r = true) (hr' : noPunct '<' r = true) :
    Rd TsSyntax.type (.id (stateName n) :: r) (.ref (stateName n) .nil) r :=
  rd_prim (rd_ref (keyword_upper (c := 'S') (by decide)) hr') (noPrefix_upper (c := 'S') (by decide)) rfl hr

theorem el_state (i : Nat) : ElW [.id (stateName i)] (.ref (stateName i) .nil) := by
  rintro c r (rfl | rfl) <;> exact ⟨rfl, rd_stateRef i rfl rfl⟩

theorem rd_kv {k : Str} {e e' : Exp} {es : Exps} {ws r r' : List Word} (h : Rd TsSyntax.type ws e r') (h' : Rd members r' es r)
    (he : e = e') : Rd members (.id k :: .punct ':' :: ws) (.cons (.member (.str k) false) e' es) r := by
  subst he
  exact rd_mem_id h h'

theorem rd_label (l : Nat × Nat) {r : List Word} (hr : ends r = true) : Rd TsSyntax.type (labelW l ++ r) (tyExp (MiniTs.labelTy l)) r := by
  have : tyExp (MiniTs.labelTy l) = .obj (.cons (.member (.str "from".toList) false) (.lit (.num l.1))
      (.cons (.member (.str "to".toList) false) (.lit (.num l.2)) .nil)) := by
    simp only [MiniTs.labelTy, objS, tyExp, memExps, List.map_cons, List.map_nil]
    rfl
  rw [this]
  simp only [labelW, List.cons_append, List.nil_append]
  exact rd_prim (rd_obj (rd_mem_id (rd_prim rd_num rfl rfl rfl) (rd_mems_comma (rd_mem_id (rd_prim rd_num rfl rfl rfl) rd_mems_nil))))
    rfl rfl hr

theorem el_label (l : Nat × Nat) : ElW (labelW l) (tyExp (MiniTs.labelTy l)) := by
  rintro c r (rfl | rfl) <;> exact ⟨rfl, rd_label l rfl⟩

theorem al_tokenDef (e : Nat × Str × Bool) {r rest : List Word} {ds : List Decl} (hr : ends r = true) (h : Rd aliases r ds rest) :
    Rd aliases (tokenDefW e ++ r) (aliasOf ("TokenDef".toList ++ digits e.1) (tyExp (tokenDefTy e.2)) :: ds) rest := by
  have : tyExp (tokenDefTy e.2) = .obj (.cons (.member (.str "kind".toList) false) (.lit (.str e.2.1))
      (.cons (.member (.str "hasValue".toList) false) (.lit (.bool e.2.2)) .nil)) := by
    simp only [tokenDefTy, objS, tyExp, memExps, List.map_cons, List.map_nil]
    rfl
  rw [this]
  simp only [tokenDefW, List.cons_append, List.nil_append]
  exact al_plain (rd_prim (rd_obj (rd_mem_id (rd_prim rd_str rfl rfl rfl) (rd_mems_comma (rd_mem_id (rd_bool _ rfl rfl) rd_mems_nil))))
    rfl rfl hr) h

theorem al_state (p : State × Nat) {r rest : List Word} {ds : List Decl} (hr : ends r = true) (h : Rd aliases r ds rest) :
    Rd aliases (stateW p ++ r) (aliasOf (stateName p.2) (tyExp (stateTy p.1)) :: ds) rest := by
  have : tyExp (stateTy p.1) = .obj (.cons (.member (.str "to".toList) false) (tyExp (nums p.1.to))
      (.cons (.member (.str "labels".toList) false) (.tup (tupExps (p.1.labels.map fun l => tyExp (MiniTs.labelTy l))))
      (.cons (.member (.str "accepting".toList) false) (.lit (.bool p.1.accepting)) .nil))) := by
    rw [← tyExps_map]
    simp only [stateTy, objS, tyExp, memExps, List.map_cons, List.map_nil]
    rfl
  rw [this]
  simp only [stateW, List.cons_append, List.nil_append, List.append_assoc]
  exact al_plain (rd_prim (rd_obj (rd_mem_id (rd_nums _ rfl) (rd_mems_comma (rd_mem_id
    (rd_prim (rd_tup (rd_commas fun l _ => el_label l)) rfl rfl rfl) (rd_mems_comma (rd_mem_id (rd_bool _ rfl rfl) rd_mems_nil))))))
    rfl rfl hr) h

theorem read_lexW (t : Tables) : Rd aliases (lexW t) (statesFile t).decls [] := by
  have h5 : ends (.id "export".toList :: .id "type".toList :: .id "DFAtoNFA".toList :: .punct '=' :: .punct '{' ::
        (t.dfaToNfa.flatMap dfaMemberW ++ [.punct '}'])) = true ∧
      Rd aliases (.id "export".toList :: .id "type".toList :: .id "DFAtoNFA".toList :: .punct '=' :: .punct '{' ::
        (t.dfaToNfa.flatMap dfaMemberW ++ [.punct '}']))
      [aliasOf "DFAtoNFA".toList (tyExp (objN (t.dfaToNfa.map fun e => (e.1, nums e.2))))] [] := by
    refine ⟨rfl, al_export (al_plain (rd_prim ?_ rfl rfl rfl) al_nil)⟩
    rw [tyExp_objN]
    refine rd_obj (rd_members (w := dfaMemberW) fun e _ r es rest hr h => ?_).2
    simp only [dfaMemberW, List.cons_append, List.nil_append, List.append_assoc]
    exact ⟨rfl, rd_mem_num (rd_nums _ rfl) (rd_mems_comma h)⟩
  have h4 : Rd aliases (.id "export".toList :: .id "type".toList :: .id "States".toList :: .punct '=' :: .punct '[' ::
        (commasW ((List.range t.states.length).map fun i => [.id (stateName i)]) ++ .punct ']' :: .punct ';' ::
        .id "export".toList :: .id "type".toList :: .id "DFAtoNFA".toList :: .punct '=' :: .punct '{' ::
        (t.dfaToNfa.flatMap dfaMemberW ++ [.punct '}'])))
      (aliasOf "States".toList (.tup (tupExps ((List.range t.states.length).map fun i => .ref (stateName i) .nil))) ::
        [aliasOf "DFAtoNFA".toList (tyExp (objN (t.dfaToNfa.map fun e => (e.1, nums e.2))))]) [] :=
    al_export (al_plain (rd_prim (rd_tup (rd_commas fun i _ => el_state i)) rfl rfl rfl) (al_semi h5.2))
  have h3 := rd_decls (w := stateW) (d := fun s => aliasOf (stateName s.2) (tyExp (stateTy s.1))) (by rfl) h4 (l := t.states.zipIdx)
    fun p _ r ds hr h => ⟨rfl, al_state p hr h⟩
  have h2 : Rd aliases (.id "export".toList :: .id "type".toList :: .id "Tokens".toList :: .punct '=' :: .punct '{' ::
      (t.tokens.flatMap tokensMemberW ++ .punct '}' :: _)) _ [] :=
    al_export (al_plain (rd_prim (rd_obj (rd_members (w := tokensMemberW) (k := fun e => .num e.1)
      (t := fun e => .ref ("TokenDef".toList ++ digits e.1) .nil) fun e _ r es rest hr h => by
        simp only [tokensMemberW, List.cons_append, List.nil_append]
        exact ⟨rfl, rd_mem_num (rd_tokenDefRef _ rfl rfl) (rd_mems_semi h)⟩).2) rfl rfl h3.1) h3.2)
  have h1 := rd_decls (w := tokenDefW) (d := fun e => aliasOf ("TokenDef".toList ++ digits e.1) (tyExp (tokenDefTy e.2)))
    (by rfl) h2 (l := t.tokens) fun e _ r ds hr h => ⟨rfl, al_tokenDef e hr h⟩
  have := h1.2
  unfold lexW
  simp only [List.cons_append, List.nil_append] at this ⊢
  unfold statesFile
  simp only [List.append_assoc, List.cons_append, List.nil_append]
  exact this

/-- What begins a file of declarations. -/
theorem it_of {ws : List Word} {d : Decl} {ds : List Decl} (h : Rd aliases ws (d :: ds) [])
    (hw : (∃ x r, ws = .id "export".toList :: .id "type".toList :: .id x :: .punct '=' :: r) ∨
      ∃ x r, ws = .id "type".toList :: .id x :: .punct '=' :: r) : It ws ⟨[], d :: ds, []⟩ := by
  rcases hw with ⟨x, r, rfl⟩ | ⟨x, r, rfl⟩
  · exact it_export h
  · exact it_type h

/-- The tables of the lexer are the file. -/
theorem it_lex (t : Tables) : It (lexW t) (statesFile t) := by
  have h := read_lexW t
  have hf : statesFile t = ⟨[], (statesFile t).decls, []⟩ := rfl
  rw [hf]
  cases hd : (statesFile t).decls with
  | nil => simp [statesFile] at hd
  | cons d ds =>
    rw [hd] at h
    refine it_of h ?_
    cases ht : t.tokens with
    | nil => exact .inl ⟨_, _, by rw [lexW, ht]; rfl⟩
    | cons e es => exact .inr ⟨_, _, by rw [lexW, ht]; rfl⟩

/-! ## The characters -/

/-- `char_escape` writes the character. -/
theorem scan_charEscape {c : Char} (h : c = '\n' ∨ isBreak c = false) (out : List Word) :
    TsSyntax.scanFrom (at_ out (qt '"' [])) (charEscape c) = at_ out (qt '"' [c]) := by
  unfold charEscape
  split_ifs with h1 h2 h3
  · subst h1; rfl
  · subst h2; rfl
  · subst h3; rfl
  · have h4 : isBreak c = false := h.resolve_left h3
    have h5 : ¬(c = '\n' ∨ c = '\r') := by
      rintro (rfl | rfl) <;> revert h4 <;> decide
    simp [TsSyntax.scanFrom, TsSyntax.scanStep, at_, qt, h1, h2, h5]

def charactersW (e : Nat × Nat) : List Word := [.num e.2, .punct ':', .str [Char.ofNat e.1], .punct ',']

def charTableW (e : Nat × Nat) : List Word := [.str [Char.ofNat e.1], .punct ':', .num e.2, .punct ',']

def charsW (m : List (Nat × Nat)) : List Word :=
  [.id "export".toList, .id "type".toList, .id "Characters".toList, .punct '=', .punct '{'] ++
    (m.flatMap charactersW ++ ([.punct '}', .id "export".toList, .id "type".toList, .id "CharTable".toList,
      .punct '=', .punct '{'] ++ (m.flatMap charTableW ++ [.punct '}'])))

theorem scan_chars {m : List (Nat × Nat)} (h : Breakless m) :
    TsSyntax.scanFrom (at_ [] .between) (charsText m) = at_ (charsW m) .between := by
  unfold charsText charsW
  ts_lits
  rw [TsSyntax.scan_flatMap (g := charactersW) (fun e he out => by
    unfold charactersMember charactersW
    ts_lits
    rw [scan_charEscape (h e he)]
    ts_lits)]
  ts_lits
  rw [TsSyntax.scan_flatMap (g := charTableW) (fun e he out => by
    unfold charTableMember charTableW
    ts_lits
    rw [scan_charEscape (h e he)]
    ts_lits)]
  ts_lits

theorem it_chars (m : List (Nat × Nat)) : It (charsW m) (charsFile m) := by
  unfold charsW charsFile
  simp only [List.cons_append, List.nil_append]
  have h2 : Rd aliases (.id "export".toList :: .id "type".toList :: .id "CharTable".toList :: .punct '=' :: .punct '{' ::
      (m.flatMap charTableW ++ [.punct '}']))
      [aliasOf "CharTable".toList (tyExp (objS (m.map fun e => ([Char.ofNat e.1], .num e.2))))] [] := by
    rw [tyExp_objS]
    refine al_export (al_plain (rd_prim (rd_obj (rd_members (w := charTableW) fun e _ r es rest hr h => ?_).2) rfl rfl rfl) al_nil)
    simp only [charTableW, List.cons_append, List.nil_append]
    exact ⟨rfl, rd_mem_str (rd_prim rd_num rfl rfl rfl) (rd_mems_comma h)⟩
  refine it_export ?_
  rw [tyExp_objN]
  refine al_export (al_plain (rd_prim (rd_obj (rd_members (w := charactersW) fun e _ r es rest hr h => ?_).2) rfl rfl rfl) h2)
  simp only [charactersW, List.cons_append, List.nil_append]
  exact ⟨rfl, rd_mem_num (rd_prim rd_str rfl rfl rfl) (rd_mems_comma h)⟩

/-! ## The numbers -/

def succW (i : Nat) : List Word := [.num i, .punct ':', .num (i + 1), .punct ';']

def predW (i : Nat) : List Word := [.num (i + 1), .punct ':', .num i, .punct ';']

def arithW (max : Nat) : List Word :=
  [.id "export".toList, .id "type".toList, .id "SuccTable".toList, .punct '=', .punct '{'] ++
    ((List.range max).flatMap succW ++ ([.punct '}', .id "export".toList, .id "type".toList, .id "PredTable".toList,
      .punct '=', .punct '{'] ++ ((List.range max).flatMap predW ++ [.punct '}'])))

theorem scan_arith (max : Nat) : TsSyntax.scanFrom (at_ [] .between) (arithText max) = at_ (arithW max) .between := by
  unfold arithText arithW
  ts_lits
  rw [TsSyntax.scan_flatMap (g := succW) (fun i _ out => by unfold succMember succW; ts_lits)]
  ts_lits
  rw [TsSyntax.scan_flatMap (g := predW) (fun i _ out => by unfold predMember predW; ts_lits)]
  ts_lits

theorem it_arith (max : Nat) : It (arithW max) (arithFile max) := by
  unfold arithW arithFile Ts.succTable Ts.predTable
  simp only [List.cons_append, List.nil_append, List.map_map]
  have e1 : (fun e : Nat × Nat => (e.1, Ty.num e.2)) ∘ (fun i => (i, i + 1)) = fun i : Nat => (i, Ty.num (i + 1)) := rfl
  have e2 : (fun e : Nat × Nat => (e.1, Ty.num e.2)) ∘ (fun i => (i + 1, i)) = fun i : Nat => (i + 1, Ty.num i) := rfl
  rw [e1, e2]
  have h2 : Rd aliases (.id "export".toList :: .id "type".toList :: .id "PredTable".toList :: .punct '=' :: .punct '{' ::
      ((List.range max).flatMap predW ++ [.punct '}']))
      [aliasOf "PredTable".toList (tyExp (objN ((List.range max).map fun i => (i + 1, .num i))))] [] := by
    rw [tyExp_objN]
    refine al_export (al_plain (rd_prim (rd_obj (rd_members (w := predW) fun e _ r es rest hr h => ?_).2) rfl rfl rfl) al_nil)
    simp only [predW, List.cons_append, List.nil_append]
    exact ⟨rfl, rd_mem_num (rd_prim rd_num rfl rfl rfl) (rd_mems_semi h)⟩
  refine it_export ?_
  rw [tyExp_objN (List.range max) (fun i => i)]
  refine al_export (al_plain (rd_prim (rd_obj (rd_members (w := succW) fun e _ r es rest hr h => ?_).2) rfl rfl rfl) h2)
  simp only [succW, List.cons_append, List.nil_append]
  exact ⟨rfl, rd_mem_num (rd_prim rd_num rfl rfl rfl) (rd_mems_semi h)⟩

end Verif.Spec.TsProject
