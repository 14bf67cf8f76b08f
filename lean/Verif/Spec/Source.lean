import Verif.Spec.Regex

/-! # Specification: text in grammar files -/

namespace Verif.Spec

/-- Text that can stand between double quotes: backslashes come in pairs or before a
double quote, and a double quote only after a backslash. -/
inductive Quotable : List Char → Prop
  | nil : Quotable []
  | backslash {t} : Quotable t → Quotable ('\\' :: '\\' :: t)
  | quote {t} : Quotable t → Quotable ('\\' :: '"' :: t)
  | char {c t} : c ≠ '\\' → c ≠ '"' → Quotable t → Quotable (c :: t)

end Verif.Spec
