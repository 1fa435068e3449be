import Verif.Spec.Url

/-!
# The texts that the expressions of example/using_expressions.cpp, example/basic.cpp and example/structured_bindings.cpp are about
-/

namespace Mregex.Spec
open Mregex

/-- `schema://name.com/path`; the path may be missing. -/
structure ComSite where
  schema : List Byte
  name : List Byte
  path : Option (List Byte)

def ComSite.text (u : ComSite) : List Byte := u.schema ++ (txt "://" ++ (u.name ++ (txt ".com" ++ optionText (fun w => ch '/' :: w) u.path)))

/-- Small letters, dots and dashes. -/
def NameChar (x : Byte) : Prop := (97 ≤ x.toNat ∧ x.toNat ≤ 122) ∨ x = ch '.' ∨ x = ch '-'
/-- No blanks: not space, tab, line feed, vertical tab, form feed, carriage return. -/
def Visible (x : Byte) : Prop := x.toNat ≠ 32 ∧ ¬(9 ≤ x.toNat ∧ x.toNat ≤ 13)

def ComSite.Fine (u : ComSite) : Prop :=
  (u.schema = txt "ftp" ∨ u.schema = txt "ssh" ∨ u.schema = txt "http" ∨ u.schema = txt "https") ∧ Series NameChar u.name ∧ ∀ w, u.path = some w → ∀ x ∈ w, Visible x

/-! ### Dates -/

/-- A date as it is written. -/
def dateText (d m y : List Byte) : List Byte := d ++ ch '/' :: (m ++ ch '/' :: y)

/-- Digits, from `lo` to `hi` of them. -/
def DigitsOf (lo hi : Nat) (v : List Byte) : Prop := (∀ x ∈ v, Digit x) ∧ lo ≤ v.length ∧ v.length ≤ hi

end Mregex.Spec
