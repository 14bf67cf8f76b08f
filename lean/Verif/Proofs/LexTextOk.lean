import Verif.Proofs.ReadOk
import Verif.Spec.TsTables

/-! # The text of the lexer tables -/

namespace Verif.Spec
open Verif LexGen

theorem scan_plain2 : ∀ (s w : Str) (out : List TsTok), Plain2 s →
    scanFrom ⟨.quoted '"' w, out⟩ s = ⟨.quoted '"' (w ++ s), out⟩
  | [], w, out, _ => by simp [scanFrom]
  | c :: s, w, out, h => by
    obtain ⟨h1, h3, h4⟩ := h c (by simp)
    have := scan_plain2 s (w ++ [c]) out fun x hx => h x (by simp [hx])
    have h5 : (c == '"') = false := by simp_all
    have h6 : (c == '\\') = false := by simp_all
    simp only [scanFrom, List.foldl_cons, scanStep, h5, h6, h4, Bool.false_eq_true, if_false] at this ⊢
    rw [this]
    simp

theorem scan_bool (b : Bool) (out : List TsTok) : scanFrom ⟨.between, out⟩ (boolText b) = ⟨.word (boolText b), out⟩ := by
  cases b <;> simp only [boolText, if_true, if_false, Bool.false_eq_true] <;> scan_lits

def defName (n : Nat) : Str := "TokenDef".toList ++ digits n

def tokenDefToks (e : Nat × Str × Bool) : List TsTok :=
  [.word "type".toList, .word (defName e.1), .punct '=', .punct '{', .newline,
    .word "kind".toList, .punct ':', .str e.2.1, .punct ',', .newline,
    .word "hasValue".toList, .punct ':', .word (boolText e.2.2), .newline, .punct '}', .newline, .newline]

theorem scan_tokenDef {e : Nat × Str × Bool} (h : Plain2 e.2.1) (out : List TsTok) :
    scanFrom ⟨.between, out⟩ (tokenDefText e) = ⟨.between, out ++ tokenDefToks e⟩ := by
  have h1 : ∀ out, scanFrom ⟨.quoted '"' [], out⟩ e.2.1 = ⟨.quoted '"' e.2.1, out⟩ := fun out => scan_plain2 _ [] out h
  unfold tokenDefText tokenDefToks defName
  scan_lits
  simp only [h1]
  scan_lits
  simp only [scan_bool]
  scan_lits

def tokensMemberToks (e : Nat × Str × Bool) : List TsTok := [.num e.1, .punct ':', .word (defName e.1), .punct ';']

theorem scan_tokensMember (e : Nat × Str × Bool) (out : List TsTok) :
    scanFrom ⟨.between, out⟩ (tokensMemberText e) = ⟨.between, out ++ tokensMemberToks e⟩ := by
  unfold tokensMemberText tokensMemberToks defName
  scan_lits

def labelToks (l : Nat × Nat) : List TsTok :=
  [.punct '{', .word "from".toList, .punct ':', .num l.1, .punct ',', .word "to".toList, .punct ':', .num l.2, .punct '}']

theorem scan_label (l : Nat × Nat) (out : List TsTok) :
    scanFrom ⟨.between, out⟩ (labelText l) = ⟨.between, out ++ labelToks l⟩ := by
  unfold labelText labelToks
  scan_lits

def stateToks (p : State × Nat) : List TsTok :=
  [.word "type".toList, .word (stateName p.2), .punct '=', .punct '{', .newline, .word "to".toList, .punct ':', .punct '['] ++
    (commas (p.1.to.map fun n => [.num n]) ++ ([.punct ']', .punct ',', .newline, .word "labels".toList, .punct ':', .punct '['] ++
    (commas (p.1.labels.map labelToks) ++ [.punct ']', .punct ',', .newline, .word "accepting".toList, .punct ':',
      .word (boolText p.1.accepting), .newline, .punct '}', .newline, .newline])))

theorem scan_numList {sep close : Str} {m' : Scanning} {cl : List TsTok}
    (hs : ∀ n out, scanFrom ⟨.digits n, out⟩ sep = ⟨.between, out ++ [.num n, .punct ',']⟩)
    (hc : ∀ n out, scanFrom ⟨.digits n, out⟩ close = ⟨m', out ++ (.num n :: cl)⟩)
    (h0 : ∀ out, scanFrom ⟨.between, out⟩ close = ⟨m', out ++ cl⟩) (l : List Nat) (out : List TsTok) :
    scanFrom (scanFrom ⟨.between, out⟩ (join sep (l.map digits))) close =
      ⟨m', out ++ (commas (l.map fun n => [.num n]) ++ cl)⟩ := by
  have := scan_join (f := digits) (m := fun n => .digits n) (pre := fun _ => []) (fin := fun n => [.num n])
    (sep := sep) (close := close) (m' := m') (cl := cl)
    (fun n out => by rw [scan_digits, List.append_nil]) (fun n out => hs n out) (fun n out => hc n out) h0 l out
  simpa using this

theorem scan_state (p : State × Nat) (out : List TsTok) :
    scanFrom ⟨.between, out⟩ (stateText p) = ⟨.between, out ++ stateToks p⟩ := by
  unfold stateText stateToks stateName
  scan_lits
  rw [scan_numList (cl := [.punct ']', .punct ',', .newline, .word "labels".toList, .punct ':', .punct '['])
    (m' := .between) (fun n out => by scan_lits) (fun n out => by scan_lits) (fun out => by scan_lits)]
  rw [scan_join (f := labelText) (m := fun _ => .between) (pre := labelToks) (fin := fun _ => [])
    (m' := .between) (cl := [.punct ']', .punct ',', .newline, .word "accepting".toList, .punct ':'])
    (fun l out => scan_label l out) (fun n out => by scan_lits) (fun n out => by scan_lits) (fun out => by scan_lits)]
  simp only [scan_bool]
  scan_lits

def dfaMemberToks (e : Nat × List Nat) : List TsTok :=
  [.num e.1, .punct ':', .punct '['] ++ (commas (e.2.map fun n => [.num n]) ++ [.punct ']', .punct ',', .newline])

theorem scan_dfaMember (e : Nat × List Nat) (out : List TsTok) :
    scanFrom ⟨.between, out⟩ (dfaMemberText e) = ⟨.between, out ++ dfaMemberToks e⟩ := by
  unfold dfaMemberText dfaMemberToks
  scan_lits
  rw [scan_numList (cl := [.punct ']', .punct ',', .newline]) (m' := .between) (fun n out => by scan_lits)
    (fun n out => by scan_lits) (fun out => by scan_lits)]
  scan_lits

def lexToks (t : Tables) : List TsTok :=
  [.newline, .newline] ++ (t.tokens.flatMap tokenDefToks ++
    ([.word "export".toList, .word "type".toList, .word "Tokens".toList, .punct '=', .punct '{', .newline] ++
    (t.tokens.flatMap tokensMemberToks ++ ([.newline, .punct '}', .newline, .newline] ++
    (t.states.zipIdx.flatMap stateToks ++
    ([.word "export".toList, .word "type".toList, .word "States".toList, .punct '=', .punct '['] ++
    (commas ((List.range t.states.length).map fun i => [.word (stateName i)]) ++
    ([.punct ']', .punct ';', .newline, .newline] ++
    ([.word "export".toList, .word "type".toList, .word "DFAtoNFA".toList, .punct '=', .punct '{', .newline] ++
    (t.dfaToNfa.flatMap dfaMemberToks ++ [.punct '}']))))))))))

theorem scan_lexText {t : Tables} (h : ∀ e ∈ t.tokens, Plain2 e.2.1) :
    scanFrom ⟨.between, []⟩ t.text = ⟨.between, lexToks t⟩ := by
  unfold Tables.text lexToks headerText
  scan_lits
  rw [scan_flatMap (g := tokenDefToks) (fun e he out => scan_tokenDef (h e he) out)]
  scan_lits
  rw [scan_flatMap (g := tokensMemberToks) (fun e he out => scan_tokensMember e out)]
  scan_lits
  rw [scan_flatMap (g := stateToks) (fun e he out => scan_state e out)]
  scan_lits
  rw [scan_join (f := stateName) (m := fun i => .word (stateName i)) (pre := fun _ => []) (fin := fun i => [.word (stateName i)])
    (m' := .between) (cl := [.punct ']', .punct ';', .newline, .newline])
    (fun i out => by unfold stateName; scan_lits) (fun n out => by scan_lits) (fun n out => by scan_lits)
    (fun out => by scan_lits)]
  scan_lits
  rw [scan_flatMap (g := dfaMemberToks) (fun e he out => scan_dfaMember e out)]
  scan_lits

end Verif.Spec
