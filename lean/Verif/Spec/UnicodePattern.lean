import Mathlib.Computability.RegularExpressions
import Verif.Spec.Regular
import Verif.Spec.Unicode

/-!
# Unicode expressions that can be written as patterns
-/

namespace Mregex.Spec
open Mregex

/-- No groups; the bounds of quantifiers are in order and fit in 64 bits. -/
def UExpr.Plain : UExpr → Prop
  | .cat a b | .alt a b => a.Plain ∧ b.Plain
  | .rep _ lo hi a => lo < 2 ^ 64 ∧ (∀ h, hi = .fin h → lo ≤ h ∧ h < 2 ^ 64) ∧ a.Plain
  | .group _ _ _ => False
  | _ => True

/-- The regular expressions of Mathlib over characters. -/
def UExpr.ofExpression : RegularExpression Char → UExpr
  | .zero => .ascii []
  | .epsilon => .empty
  | .char c => .char c
  | .plus P Q => .alt (.ofExpression P) (.ofExpression Q)
  | .comp P Q => .cat (.ofExpression P) (.ofExpression Q)
  | .star P => .rep .greedy 0 .inf (.ofExpression P)

/-- The texts whose encodings a method reports a match for. -/
def acceptedChars (R : Regex) (M : Method) (cat : Cat) : Language Char := {u | utf8 u ∈ accepted R M cat}

/-- Encoded texts of the language, one directly after the other from the beginning of some bytes, until there is none or until one is empty. -/
inductive TakenBytes (L : Language Char) : List Byte → List (List Char) → Prop
  | none {r} : (∀ v y, r = utf8 v ++ y → v ∉ L) → TakenBytes L r []
  | empty {r} : [] ∈ L → TakenBytes L r [[]]
  | cons {v y l} : v ∈ L → v ≠ [] → TakenBytes L y l → TakenBytes L (utf8 v ++ y) (v :: l)

/-- An arbitrary character of UTF-8 as a pattern. -/
def charPattern : String := "(?:[\\x00-\\x7F]|[\\xC2-\\xDF][\\x80-\\xBF]|\\xE0[\\xA0-\\xBF][\\x80-\\xBF]|[\\xE1-\\xEC][\\x80-\\xBF][\\x80-\\xBF]|\\xED[\\x80-\\x9F][\\x80-\\xBF]|[\\xEE-\\xEF][\\x80-\\xBF][\\x80-\\xBF]|\\xF0[\\x90-\\xBF][\\x80-\\xBF][\\x80-\\xBF]|[\\xF1-\\xF3][\\x80-\\xBF][\\x80-\\xBF][\\x80-\\xBF]|\\xF4[\\x80-\\x8F][\\x80-\\xBF][\\x80-\\xBF])"

end Mregex.Spec
