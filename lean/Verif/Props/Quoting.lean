import Verif.Proofs.ScanLits

/-! # Property C43: names in generated text -/

namespace Verif.Props
open Verif Spec LexGen ParseGen

/-- C43.  The words of the member of `TokenKindToIdx` and of the `TokenDef` written for
a plain name: both contain a string literal that denotes exactly that name. -/
theorem C43_names {name : Str} (h : PlainName name) (idx tok : Nat) (withVal : Bool) :
    scanText (kindText (name, idx)) = some [.str name, .punct ':', .num idx, .newline] ∧
    scanText (tokenDefText (tok, name, withVal)) =
      some [.word "type".toList, .word ("TokenDef".toList ++ digits tok), .punct '=', .punct '{', .newline,
        .word "kind".toList, .punct ':', .str name, .punct ',', .newline,
        .word "hasValue".toList, .punct ':', .word (boolText withVal), .newline, .punct '}', .newline, .newline] := by
  have h1 : ∀ out, scanFrom ⟨.quoted '"' [], out⟩ name = ⟨.quoted '"' name, out⟩ :=
    fun out => scan_plain '"' (.inl rfl) name [] out h
  have h2 : ∀ out, scanFrom ⟨.quoted '\'' [], out⟩ name = ⟨.quoted '\'' name, out⟩ :=
    fun out => scan_plain '\'' (.inr rfl) name [] out h
  constructor
  · have e : scanFrom ⟨.between, []⟩ (kindText (name, idx)) = ⟨.between, [.str name, .punct ':', .num idx, .newline]⟩ := by
      unfold kindText
      scan_lits
      simp only [h2]
      scan_lits
    unfold scanFrom at e
    unfold scanText
    rw [e]
  · have e : scanFrom ⟨.between, []⟩ (tokenDefText (tok, name, withVal)) = ⟨.between,
        [.word "type".toList, .word ("TokenDef".toList ++ digits tok), .punct '=', .punct '{', .newline,
        .word "kind".toList, .punct ':', .str name, .punct ',', .newline,
        .word "hasValue".toList, .punct ':', .word (boolText withVal), .newline, .punct '}', .newline, .newline]⟩ := by
      unfold tokenDefText
      scan_lits
      simp only [h1]
      scan_lits
      cases withVal <;> simp only [boolText, if_true, if_false, Bool.false_eq_true] <;> scan_lits
    unfold scanFrom at e
    unfold scanText
    rw [e]

/-- C43.  More generally, a name without quotes reads the same in both places,
escapes included. -/
theorem C43_same {name : Str} (h : ∀ c ∈ name, c ≠ '"' ∧ c ≠ '\'') :
    scanText ('\'' :: (name ++ ['\''])) = scanText ('"' :: (name ++ ['"'])) := by
  unfold scanText
  rw [List.foldl_cons, List.foldl_cons, List.foldl_append, List.foldl_append]
  rw [show scanStep ⟨.between, []⟩ '\'' = ⟨.quoted '\'' [], []⟩ from rfl,
    show scanStep ⟨.between, []⟩ '"' = ⟨.quoted '"' [], []⟩ from rfl]
  have := scan_same name [] [] h
  unfold scanFrom at this
  rcases this with ⟨w', e1, e2⟩ | ⟨w', e1, e2⟩ | ⟨e1, e2⟩ <;> rw [e1, e2] <;> rfl

/-- C43 is false for a name with an apostrophe: the member of `TokenKindToIdx` is
malformed. -/
theorem C43_false : scanText (kindText ("'".toList, 1)) = none ∧
    scanText (tokenDefText (2, "'".toList, true)) ≠ none := by
  constructor <;> decide +kernel

/-- C43.  What is written for the literal `\\` denotes a single backslash: a parameter
of this type is compared with one backslash, while its token always has two. -/
theorem C43_false_value : scanText (Cond.lit "x".toList "\\\\".toList).write =
    some [.word "__x".toList, .punct '[', .str "token".toList, .punct ']', .punct '[', .str "value".toList, .punct ']',
      .word "extends".toList, .word "infer".toList, .word "x".toList, .word "extends".toList, .str "\\".toList] := by
  decide +kernel

-- C43: a regex is a plain name; the words written for it.
example : PlainName "[1-9]+[0-9]*".toList ∧ scanText (kindText ("[1-9]+[0-9]*".toList, 17)) =
    some [.str "[1-9]+[0-9]*".toList, .punct ':', .num 17, .newline] :=
  ⟨by decide, (C43_names (by decide) 17 0 true).1⟩

-- C43: escapes, read the same in both quotes.
example : (∀ c ∈ "a\\\\n".toList, c ≠ '"' ∧ c ≠ '\'') ∧ scanText "\"a\\\\n\"".toList = some [.str "a\\n".toList] ∧
    scanText "'a\\\\n'".toList = some [.str "a\\n".toList] := by
  decide +kernel

end Verif.Props
