import Verif.Proofs.GenFileOk
import Verif.Tests.RepoRead

/-! # Property C60: the files of the project, read as text

`Verif.Spec.TsProject` reads imports, aliases and modules from the text of files and says what an
expression written in one of them denotes.  Nothing in it knows of parsers or of tables. -/

namespace Verif.Props
open Verif Spec MiniTs
open Verif.Tests (lispT)
open Verif.Tests.TsFiles (utilText lexText parseText)
open Verif.Tests.RepoFiles (charsText stateText genText lispProject)

/-! ## For every grammar -/

section
variable {H : Type} [DecidableEq H] {hash : List Item → H} {rx : Str → Option Hir} {ord : Nfa.Order}
  {ps : List Ast.Prod} {start : Ast.Prod} {g : Grammar} {l : Lalr} {T : ParseGen.Tables} {max : Nat}

/-- C60: in the project with the generated files, in which the mapping code is part of the
conditional types and the types of the user are declarations, an expression denotes exactly what
the model says. -/
theorem C60_meaning (hE : Emitted hash rx ord ps start g l T max) (hN : TsNames ps) (hR : Readable ps) (hm : 50 ≤ max)
    {m : Mod} (hf : m ∈ [Mod.util, .lex, .parse, .defs, .actions]) {e : Exp} (he : codeFree e = true) {t : Ty} :
    TsProject.Denotes (projectOf ps (genOf max l T)) m e t ↔ TypeIs (userOf ps) (genOf max l T) m e t :=
  denotes_iff (gen_fileOk hE hN hR hm) hf he

end

/-! ## The files of the repository -/

/-- The files of the repository, read from their text; ./arith_table.gen, which is not in the
repository, holds the successors and predecessors up to `max`. -/
def repoFile (max : Nat) : Mod → Option TsProject.File
  | .util => TsProject.file utilText.flatten
  | .lex => TsProject.file lexText.flatten
  | .parse => TsProject.file parseText.flatten
  | .chars => TsProject.file charsText.flatten
  | .states => TsProject.file stateText.flatten
  | .gen => TsProject.file genText.flatten
  | .arith => some (arithFile max)
  | _ => some ⟨[], [], []⟩

/-- C60: the texts of the six files are those of the project for basic_lisp.tlalr. -/
theorem C60_files (max : Nat) (m : Mod) : repoFile max m = some (projectOf lispAst (genOf max lispL lispT) m) := by
  cases m
  · exact Tests.RepoFiles.util_file
  · exact Tests.RepoFiles.lex_file
  · exact Tests.RepoFiles.parse_file
  · rfl
  · rfl
  · rfl
  · exact Tests.RepoFiles.chars_file
  · exact Tests.RepoFiles.states_file
  · exact Tests.RepoFiles.gen_file

mutual
/-- A test for `dataExp`. -/
def isData (known : List Str) : Exp → Bool
  | .lit _ => true
  | .ref x .nil => decide (x ∈ known)
  | .idx t k => isData known t && isData known k
  | .keyof t => isData known t
  | .arr t => isData known t
  | .tup es => areData known es
  | .obj es => areData known es
  | .union es => areData known es
  | .tmpl es => areData known es
  | _ => false
def areData (known : List Str) : Exps → Bool
  | .nil => true
  | .cons _ e es => isData known e && areData known es
end

mutual
theorem isData_sound {known : List Str} : ∀ e : Exp, isData known e = true → dataExp (· ∈ known) e
  | .lit _, _ => trivial
  | .ref x .nil, h => by simpa [isData, dataExp] using h
  | .ref x (.cons _ _ _), h => by simp [isData] at h
  | .idx t k, h => by
    simp only [isData, Bool.and_eq_true] at h
    exact ⟨isData_sound t h.1, isData_sound k h.2⟩
  | .keyof t, h => isData_sound t h
  | .arr t, h => isData_sound t h
  | .tup es, h => areData_sound es h
  | .obj es, h => areData_sound es h
  | .union es, h => areData_sound es h
  | .tmpl es, h => areData_sound es h
  | .infer _, h => by simp [isData] at h
  | .inferExt _ _, h => by simp [isData] at h
  | .cond _ _ _ _, h => by simp [isData] at h
  | .code _ _, h => by simp [isData] at h
theorem areData_sound {known : List Str} : ∀ es : Exps, areData known es = true → dataExps (· ∈ known) es
  | .nil, _ => trivial
  | .cons _ e es, h => by
    simp only [areData, Bool.and_eq_true] at h
    exact ⟨isData_sound e h.1, areData_sound es h.2⟩
end

/-- A test for `Readable`. -/
def readableB (ps : List Ast.Prod) : Bool :=
  ps.all fun p => (readType p.tsCode).isSome && p.bodies.all fun b =>
    match readType b.mapping with
    | some e => isData (Spec.names b.inputs ++ ps.map (·.name)) e
    | none => false

theorem readableB_sound {ps : List Ast.Prod} (h : readableB ps = true) : Readable ps := by
  simp only [readableB, List.all_eq_true, Bool.and_eq_true] at h
  refine ⟨fun p hp => (h p hp).1, fun p hp b hb => ?_⟩
  have := (h p hp).2 b hb
  cases hr : readType b.mapping with
  | none => simp [hr] at this
  | some e =>
    rw [hr] at this
    refine ⟨e, rfl, (dataExp_mono fun x hx => ?_).1 e (isData_sound e this)⟩
    rcases List.mem_append.mp hx with hx | hx
    · exact .inl hx
    · obtain ⟨q, hq, rfl⟩ := List.mem_map.mp hx
      exact .inr ⟨q, hq, rfl⟩

set_option maxRecDepth 100000 in
theorem lisp_readable : Readable lispAst := readableB_sound (by decide +kernel)

theorem repo_files {max : Nat} {files : Mod → TsProject.File} (h : ∀ m, repoFile max m = some (files m)) :
    files = projectOf lispAst (genOf max lispL lispT) := by
  funext m
  exact Option.some.inj ((h m).symm.trans (C60_files max m))

theorem repo_denotes {max : Nat} (hm : 255 ≤ max) {files : Mod → TsProject.File} (h : ∀ m, repoFile max m = some (files m))
    {m : Mod} (hf : m ∈ [Mod.util, .lex, .parse, .defs, .actions]) {e : Exp} (he : codeFree e = true) {t : Ty} :
    TsProject.Denotes files m e t ↔ TypeIs (userOf lispAst) (genOf max lispL lispT) m e t := by
  rw [repo_files h]
  exact C60_meaning (lisp_emitted hm) lisp_tsNames lisp_readable (by omega) hf he

/-- C60: what `Parse<L.Lex<"text">>`, written in ts/parse.ts, denotes according to the texts of the
files of the repository. -/
theorem C60_repository {max : Nat} (hm : 255 ≤ max) {files : Mod → TsProject.File} (h : ∀ m, repoFile max m = some (files m))
    {text : Str} (hl : text.length < max) :
    (∀ v, TsProject.Denotes files .parse (parseOfLex text) (.tup [kindValue "SExpr".toList (some v)]) ↔
      ∃ (es : Lisp.Exprs) (body tail : Str), text = body ++ tail ∧ tail ∈ [[], ['a'], ['a', 'd']] ∧
        Lisp.Spaced (Lisp.listWords es) body ∧ 3 * es.atoms + 5 * es.lists < 47 ∧ v = Lisp.listTy es) ∧
    ((∃ v, TsProject.Denotes files .parse (parseOfLex text) (.tup [kindValue "SExpr".toList (some v)])) ∨
      TsProject.Denotes files .parse (parseOfLex text) (.str "exceeded max recursion depth".toList) ∨
      ∃ m ts, TsProject.Denotes files .parse (parseOfLex text) (.tup [.str ("error: invalid token ".toList ++ m), .tup ts])) := by
  have he : codeFree (parseOfLex text) = true := rfl
  simp only [repo_denotes hm h (m := .parse) (by simp) he]
  exact C59_value hm hl

theorem ev_ast {U : User} {G : Gen} {t : Ty} : TypeIs U G .parse (.ref "ast".toList .nil) t ↔
    TypeIs U G .parse (parseOfLex "(add 34 35)".toList) t := by
  rw [typeIs_iff, typeIs_iff]
  have h1 : lim U (prog G) .parse "ast".toList [] = ev U (lim U (prog G) .parse) [] parse.ast.2 :=
    lim_of (d := ⟨.parse, parse.ast.1, parse.ast.2⟩) rfl rfl
  have h2 : lim U (prog G) .parse "tokens".toList [] = ev U (lim U (prog G) .parse) [] parse.tokens.2 :=
    lim_of (d := ⟨.parse, parse.tokens.1, parse.tokens.2⟩) rfl rfl
  have h3 : ev U (lim U (prog G) .parse) [] (.ref "ast".toList .nil) = lim U (prog G) .parse "ast".toList [] := by
    simp [ev, mget]
  have h4 : ev U (lim U (prog G) .parse) [] (.ref "tokens".toList .nil) = lim U (prog G) .parse "tokens".toList [] := by
    simp [ev, mget]
  have h5 : ∀ (c : Call) (x : Str) (e e' : Exp), ev U c [] e = ev U c [] e' →
      ev U c [] (.ref x (.cons .elem e .nil)) = ev U c [] (.ref x (.cons .elem e' .nil)) := by
    intro c x e e' h
    simp only [ev, evs, h]
  rw [h3, h1]
  have h6 := h5 (lim U (prog G) .parse) "Parse".toList _ _ (h4.trans h2)
  exact Eq.congr_left h6

/-- C60: the type `ast` at the end of ts/parse.ts:183, according to the texts of the files of the
repository. -/
theorem C60_ast {max : Nat} (hm : 255 ≤ max) {files : Mod → TsProject.File} (h : ∀ m, repoFile max m = some (files m)) :
    TsProject.Denotes files .parse (.ref "ast".toList .nil) (.tup [kindValue "SExpr".toList (some (Lisp.record
      [("kind", .str "SExpr".toList), ("exprs", .tup [
        Lisp.record [("kind", .str "symbol".toList), ("value", .str "add".toList)],
        Lisp.record [("kind", .str "int".toList), ("value", .str ['3', '4'])],
        Lisp.record [("kind", .str "int".toList), ("value", .str ['3', '5'])]])]))]) := by
  rw [repo_denotes hm h (by simp) rfl, ev_ast]
  refine ((C59_value hm (by simp; omega)).1 _).mpr
    ⟨.cons .add (.cons (.int 33) (.one (.int 34))), _, [], (List.append_nil _).symm, by simp, ?_, by decide, rfl⟩
  refine .word (w := .lpar) (by simp) (.word (w := .add) (by simp) (.blank (.inl rfl)
    (.word (w := .int 33) ?_ (.blank (.inl rfl) (.word (w := .int 34) ?_ (.word (w := .rpar) (by simp) .nil))))))
  · rintro n _ c hc
    cases hc
    exact fun h => absurd h.1 (by decide)
  · rintro n _ c hc
    cases hc
    exact fun h => absurd h.1 (by decide)

set_option maxRecDepth 100000 in
/-- C60: the file ts/parse_state2.gen.ts of the repository is not the one that the program at this
commit writes for basic_lisp.tlalr: that one cannot be read, as `extendsstring` follows the name of
each named regex (C44_false_regex). -/
theorem C60_false_written : TsProject.file (ParseGen.fileText lispAst lispL lispT) = none :=
  Option.isNone_iff_eq_none.mp (by decide +kernel)

-- C60: the conditions hold for the grammar of the repository, and there are such files.
example : Emitted id lispRx (fun _ l => l) lispAst (startOf lispAst) (lower lispAst) lispL lispT 255 ∧ TsNames lispAst ∧
    Readable lispAst ∧ ∃ files : Mod → TsProject.File, ∀ m, repoFile 255 m = some (files m) :=
  ⟨lisp_emitted (Nat.le_refl _), lisp_tsNames, lisp_readable, _, C60_files 255⟩

end Verif.Props
