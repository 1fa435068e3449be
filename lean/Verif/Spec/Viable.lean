import Verif.Spec.Syntax

/-!
# Beginnings of patterns
-/

namespace Mregex.Spec
open Mregex

/-- Some pattern begins with the text. -/
def Viable (w : List Byte) : Prop := ∃ v x, Pattern (w ++ v) x

end Mregex.Spec
