import Verif.Model.Chars

/-!
# Where two texts begin to differ
-/

namespace Mregex.Spec
open Mregex

/-- The length of the longest text with which both texts begin. -/
def agree : List Byte → List Byte → Nat
  | a :: w, b :: s => if a = b then agree w s + 1 else 0
  | _, _ => 0

end Mregex.Spec
