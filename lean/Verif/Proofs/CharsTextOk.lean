import Verif.Proofs.ParseTablesOk
import Verif.Proofs.LexGenOk

/-! # The text of the character tables -/

namespace Verif.Spec
open Verif LexGen

/-- `char_escape` writes the character. -/
theorem scan_charEscape {c : Char} (h : c = '\n' ∨ isBreak c = false) (out : List TsTok) :
    scanFrom ⟨.quoted '"' [], out⟩ (charEscape c) = ⟨.quoted '"' [c], out⟩ := by
  unfold charEscape
  split_ifs with h1 h2 h3
  · subst h1; rfl
  · subst h2; rfl
  · subst h3; rfl
  · have h4 : isBreak c = false := h.resolve_left h3
    have h5 : (c == '"') = false := by simp_all
    have h6 : (c == '\\') = false := by simp_all
    simp [scanFrom, scanStep, h4, h5, h6]

def charactersToks (e : Nat × Nat) : List TsTok := [.newline, .num e.2, .punct ':', .str [Char.ofNat e.1], .punct ',', .newline]

def charTableToks (e : Nat × Nat) : List TsTok := [.newline, .str [Char.ofNat e.1], .punct ':', .num e.2, .punct ',']

def charsToks (m : List (Nat × Nat)) : List TsTok :=
  [.word "export".toList, .word "type".toList, .word "Characters".toList, .punct '=', .punct '{'] ++
    (m.flatMap charactersToks ++ ([.punct '}', .newline, .word "export".toList, .word "type".toList, .word "CharTable".toList,
      .punct '=', .punct '{'] ++ (m.flatMap charTableToks ++ [.punct '}'])))

def Breakless (m : List (Nat × Nat)) : Prop := ∀ e ∈ m, Char.ofNat e.1 = '\n' ∨ isBreak (Char.ofNat e.1) = false

theorem scan_chars {m : List (Nat × Nat)} (h : Breakless m) : scanFrom ⟨.between, []⟩ (charsText m) = ⟨.between, charsToks m⟩ := by
  unfold charsText charsToks
  scan_lits
  rw [scan_flatMap (g := charactersToks) (fun e he out => by
    unfold charactersMember charactersToks
    scan_lits
    rw [scan_charEscape (h e he)]
    scan_lits)]
  scan_lits
  rw [scan_flatMap (g := charTableToks) (fun e he out => by
    unfold charTableMember charTableToks
    scan_lits
    rw [scan_charEscape (h e he)]
    scan_lits)]
  scan_lits

def charactersMem (e : Nat × Nat) : TsKey × TsTy := (.num e.2, .str [Char.ofNat e.1])
def charTableMem (e : Nat × Nat) : TsKey × TsTy := (.name [Char.ofNat e.1], .num e.2)

theorem read_charsToks (m : List (Nat × Nat)) : (readToks ⟨[], none, false, []⟩ (charsToks m)).bind readEnd =
    some [("Characters".toList, .obj (m.map charactersMem)), ("CharTable".toList, .obj (m.map charTableMem))] := by
  have e0 : ∀ rest, readToks ⟨[], none, false, []⟩ (.word "export".toList :: .word "type".toList :: .word "Characters".toList ::
      .punct '=' :: .punct '{' :: rest) = readToks ⟨[.obj [], .decl "Characters".toList], none, false, []⟩ rest := fun _ => rfl
  simp only [charsToks, List.cons_append, List.nil_append]
  rw [e0]
  obtain ⟨r1, h1, e1⟩ := read_members (toks := charactersToks) (mem := charactersMem) (fs := [.decl "Characters".toList]) (ds := []) m
    (fun e _ ms r rest h => by
      refine ⟨⟨.obj (ms ++ [charactersMem e]) :: [.decl "Characters".toList], none, true, []⟩, .here _, ?_⟩
      simp only [charactersToks, List.cons_append, List.nil_append]
      obtain ⟨r1, h1, e1⟩ := h.newline (.num e.2 :: .punct ':' :: .str [Char.ofNat e.1] :: .punct ',' :: .newline :: rest)
      rw [e1, h1.ready.num]
      rfl) [] ⟨[.obj [], .decl "Characters".toList], none, false, []⟩
    (.punct '}' :: .newline :: .word "export".toList :: .word "type".toList :: .word "CharTable".toList ::
      .punct '=' :: .punct '{' :: (m.flatMap charTableToks ++ [.punct '}'])) (.here _)
  rw [e1, h1.close, List.nil_append]
  have e2 : ∀ rest, readToks ⟨[.decl "Characters".toList], some (.obj (m.map charactersMem)), false, []⟩
      (.newline :: .word "export".toList :: .word "type".toList :: .word "CharTable".toList :: .punct '=' :: .punct '{' :: rest) =
      readToks ⟨[.obj [], .decl "CharTable".toList], none, false, [("Characters".toList, .obj (m.map charactersMem))]⟩ rest := fun _ => rfl
  rw [e2]
  obtain ⟨r3, h3, e3⟩ := read_members (toks := charTableToks) (mem := charTableMem) (fs := [.decl "CharTable".toList])
    (ds := [("Characters".toList, .obj (m.map charactersMem))]) m
    (fun e _ ms r rest h => by
      refine ⟨⟨.obj (ms ++ [charTableMem e]) :: [.decl "CharTable".toList], none, false, _⟩, .here _, ?_⟩
      simp only [charTableToks, List.cons_append, List.nil_append]
      obtain ⟨r1, h1, e1⟩ := h.newline (.str [Char.ofNat e.1] :: .punct ':' :: .num e.2 :: .punct ',' :: rest)
      rw [e1, h1.ready.str]
      rfl) [] ⟨[.obj [], .decl "CharTable".toList], none, false, [("Characters".toList, .obj (m.map charactersMem))]⟩
    [.punct '}'] (.here _)
  rw [e3, h3.close]
  rfl

theorem charTables_eq {m : List (Nat × Nat)} (h1 : (m.map Prod.snd).Nodup) (h2 : (m.map fun e => Char.ofNat e.1).Nodup) :
    charTable [("Characters".toList, .obj (m.map charactersMem)), ("CharTable".toList, .obj (m.map charTableMem))] =
      some (m.map fun e => ([Char.ofNat e.1], e.2)) ∧
    characters [("Characters".toList, .obj (m.map charactersMem)), ("CharTable".toList, .obj (m.map charTableMem))] =
      some (m.map fun e => (e.2, [Char.ofNat e.1])) := by
  generalize hD : [("Characters".toList, TsTy.obj (m.map charactersMem)), ("CharTable".toList, TsTy.obj (m.map charTableMem))] = D
  have hn : (D.map Prod.fst).Nodup := by
    rw [← hD]
    simp only [List.map_cons, List.map_nil]
    decide +kernel
  have m1 : declOf D "Characters".toList = some (.obj (m.map charactersMem)) := declOf_eq hn (by rw [← hD]; simp)
  have m2 : declOf D "CharTable".toList = some (.obj (m.map charTableMem)) := declOf_eq hn (by rw [← hD]; simp)
  have n1 : membersOf (.obj (m.map charactersMem)) = some (m.map charactersMem) :=
    if_pos (nodup_num (f := Prod.snd) (fun _ => rfl) h1)
  have n2 : membersOf (.obj (m.map charTableMem)) = some (m.map charTableMem) :=
    if_pos (nodup_name (f := fun e => [Char.ofNat e.1]) (fun _ => rfl) (by
      have := nodup_map_of_inj (f := fun c : Char => [c]) (fun a b e => by simpa using e) h2
      rw [List.map_map] at this
      exact this))
  have c1 : collect (fun m : TsKey × TsTy => do return (← keyName m.1, ← numOf m.2)) (m.map charTableMem) =
      some (m.map fun e => ([Char.ofNat e.1], e.2)) := collect_map fun e _ => rfl
  have c2 : collect (fun m : TsKey × TsTy => do return (← keyNum m.1, ← strOf m.2)) (m.map charactersMem) =
      some (m.map fun e => (e.2, [Char.ofNat e.1])) := collect_map fun e _ => rfl
  constructor
  · unfold charTable
    rw [m2]
    simp only [bind, Option.bind, pure, n2] at c1 ⊢
    exact c1
  · unfold characters
    rw [m1]
    simp only [bind, Option.bind, pure, n1] at c2 ⊢
    exact c2

end Verif.Spec

namespace Verif.LexGen

theorem msorted_charFold : ∀ (l : List Nat) (m : List (Nat × Nat)), MSorted m → MSorted (l.foldl addChar m)
  | [], m, h => h
  | c :: l, m, h => by
    refine msorted_charFold l _ ?_
    unfold addChar
    split
    · exact h
    · split
      · exact msorted_minsert h
      · exact h

/-- The characters of the table. -/
def shownChars : List Nat := (List.range 256).filter fun c => decide (c ∉ invisible)

theorem charMap_eq : charMap = shownChars.map fun c => (c, c) := by
  refine msorted_ext (msorted_charFold _ _ (by simp [MSorted, Sorted])) ?_ ?_
  · unfold MSorted Sorted
    decide +kernel
  · intro k
    have h1 : mget k charMap = if k ∈ rangeChars ∧ k ∉ invisible then some (k % 256) else none := mget_charFold k rangeChars []
    rw [h1]
    have h2 : MSorted (shownChars.map fun c => (c, c)) := by unfold MSorted Sorted; decide +kernel
    by_cases hk : k ∈ rangeChars ∧ k ∉ invisible
    · rw [if_pos hk]
      refine ((mget_eq_some_iff h2).mpr ?_).symm
      have := (mem_rangeChars k).mp hk.1
      rw [Nat.mod_eq_of_lt this]
      simp [shownChars, this, hk.2]
    · rw [if_neg hk]
      cases h3 : mget k (shownChars.map fun c => (c, c)) with
      | none => rfl
      | some v =>
        have := (mget_eq_some_iff h2).mp h3
        simp only [shownChars, List.mem_map, List.mem_filter, List.mem_range, decide_eq_true_eq, Prod.mk.injEq] at this
        obtain ⟨a, ⟨ha, hi⟩, rfl, rfl⟩ := this
        exact absurd ⟨(mem_rangeChars a).mpr ha, hi⟩ hk

end Verif.LexGen
