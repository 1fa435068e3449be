import Verif.Spec.Meaning

/-!
# Where a set ends
-/

namespace Mregex.Spec
open Mregex

/-- Characters other than `]` and `\`, and backslashes each with the character after it: no character of the text is a bracket that closes the set around it. -/
inductive Unclosed : List Byte → Prop
  | nil : Unclosed []
  | char {c w} : c ≠ ch ']' → c ≠ ch '\\' → Unclosed w → Unclosed (c :: w)
  | esc {c w} : Unclosed w → Unclosed (ch '\\' :: c :: w)

end Mregex.Spec
