import Verif.Spec.TsGenFile
import Verif.Tests.TsFiles
import Verif.Tests.RepoFiles
import Verif.Props.Lisp
import Verif.Proofs.CharsTextOk

/-! # The files of the repository, read

What `Verif.Spec.TsProject` reads from the texts of the six files under ts/ are the declarations
of the model for the grammar of basic_lisp.tlalr. -/

namespace Verif.Tests.RepoFiles
open Verif Spec MiniTs TsProject Tests.TsFiles

/-- Are the imports the same? -/
def sameImport : Import → Import → Bool
  | .names a b, .names c d => decide (a = c) && decide (b = d)
  | .all a b, .all c d => decide (a = c) && decide (b = d)
  | _, _ => false

theorem sameImport_eq {i i' : Import} (h : sameImport i i' = true) : i = i' := by
  cases i <;> cases i' <;> simp [sameImport] at h <;> rw [h.1, h.2]

/-- Are the lists the same, by this comparison? -/
def sameList {α : Type} (p : α → α → Bool) : List α → List α → Bool
  | [], [] => true
  | a :: as, b :: bs => p a b && sameList p as bs
  | _, _ => false

theorem sameList_eq {α : Type} {p : α → α → Bool} (hp : ∀ a b, p a b = true → a = b) : ∀ as bs : List α,
    sameList p as bs = true → as = bs
  | [], [], _ => rfl
  | [], _ :: _, h => by simp [sameList] at h
  | _ :: _, [], h => by simp [sameList] at h
  | a :: as, b :: bs, h => by
    simp only [sameList, Bool.and_eq_true] at h
    rw [hp _ _ h.1, sameList_eq hp as bs h.2]

/-- Are the files the same? -/
def sameFile (F F' : File) : Bool :=
  sameList sameImport F.imports F'.imports && sameDecls F.decls F'.decls &&
    sameList (fun m m' => decide (m.1 = m'.1) && sameDecls m.2 m'.2) F.modules F'.modules

theorem sameFile_eq {F F' : File} (h : sameFile F F' = true) : F = F' := by
  simp only [sameFile, Bool.and_eq_true] at h
  obtain ⟨⟨h1, h2⟩, h3⟩ := h
  have h1 := sameList_eq (fun _ _ => sameImport_eq) _ _ h1
  have h2 := sameDecls_eq _ _ h2
  have h3 := sameList_eq (fun m m' h => by
    simp only [Bool.and_eq_true, decide_eq_true_eq] at h
    exact Prod.ext h.1 (sameDecls_eq _ _ h.2)) _ _ h3
  cases F
  cases F'
  simp_all

/-- Is this the file with this text? -/
def isFile (text : Str) (F : File) : Bool :=
  match file text with
  | some F' => sameFile F' F
  | none => false

theorem isFile_eq {text : Str} {F : File} (h : isFile text F = true) : file text = some F := by
  unfold isFile at h
  cases hf : file text with
  | none => simp [hf] at h
  | some F' => rw [hf] at h; rw [sameFile_eq h]

set_option maxRecDepth 100000

/-- The project for basic_lisp.tlalr. -/
def lispProject (max : Nat) : Mod → File := projectOf Props.lispAst (genOf max Props.lispL lispT)

theorem util_file {max : Nat} : file utilText.flatten = some (lispProject max .util) :=
  isFile_eq (F := ⟨[.names ["SuccTable".toList, "PredTable".toList] "./arith_table.gen".toList], utilDecls, []⟩)
    (by decide +kernel)

theorem lex_file {max : Nat} : file lexText.flatten = some (lispProject max .lex) :=
  isFile_eq (F := ⟨[.names ["Characters".toList, "CharTable".toList] "./chars".toList,
      .names ["States".toList, "Tokens".toList, "DFAtoNFA".toList] "./lex_state.gen".toList,
      .all "U".toList "./util".toList], lexDecls, []⟩) (by decide +kernel)

theorem parse_file {max : Nat} : file parseText.flatten = some (lispProject max .parse) :=
  isFile_eq (F := ⟨[.names ["type_defs".toList, "actions".toList] "./parse_state2.gen".toList,
      .all "U".toList "./util".toList, .all "L".toList "./lex".toList], parseDecls, []⟩) (by decide +kernel)

theorem project_chars (ps : List Ast.Prod) (G : Gen) : projectOf ps G .chars = charsFile G.chars := rfl

theorem gen_chars (max : Nat) (l : Lalr) (T : ParseGen.Tables) : (genOf max l T).chars = LexGen.charMap := by
  simp only [genOf]

theorem isFile_chars : isFile charsText.flatten (charsFile (LexGen.shownChars.map fun c => (c, c))) = true := by
  decide +kernel

theorem chars_file {max : Nat} : file charsText.flatten = some (lispProject max .chars) := by
  rw [isFile_eq isFile_chars, ← LexGen.charMap_eq, lispProject, project_chars, gen_chars]

theorem states_file {max : Nat} : file stateText.flatten = some (lispProject max .states) :=
  isFile_eq (F := statesFile (LexGen.Tables.new Props.lispL.lexer)) (by decide +kernel)

theorem gen_file {max : Nat} : file genText.flatten = some (lispProject max .gen) :=
  isFile_eq (F := genFile Props.lispAst (genOf 255 Props.lispL lispT)) (by decide +kernel)

end Verif.Tests.RepoFiles
