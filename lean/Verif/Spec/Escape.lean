import Verif.Spec.Syntax

/-!
# Ways of writing characters
-/

namespace Mregex.Spec
open Mregex

/-- The hexadecimal digit for a number below 16. -/
def hexDigitOf (v : Nat) : Byte := BitVec.ofNat 8 (if v < 10 then 48 + v else 87 + v)

/-- The upper case hexadecimal digit for a number below 16. -/
def upperHexDigitOf (v : Nat) : Byte := BitVec.ofNat 8 (if v < 10 then 48 + v else 55 + v)

/-- A character written as `\xHH`. -/
def hexEscape (b : Byte) : List Byte := [ch '\\', ch 'x', hexDigitOf (b.toNat / 16), hexDigitOf (b.toNat % 16)]

/-- A letter or a digit. -/
def Alnum (b : Byte) : Prop := (48 ≤ b.toNat ∧ b.toNat ≤ 57) ∨ (65 ≤ b.toNat ∧ b.toNat ≤ 90) ∨ (97 ≤ b.toNat ∧ b.toNat ≤ 122)

instance (b : Byte) : Decidable (Alnum b) := by unfold Alnum; infer_instance

/-- A letter or a digit is written as it is, any other character after a backslash. -/
def backslashEscape (b : Byte) : List Byte := if Alnum b then [b] else [ch '\\', b]

end Mregex.Spec
