import Verif.Spec.Static

/-!
# Anchors around a regex
-/

namespace Mregex.Spec
open Mregex

/-- `\AR`. -/
def fromStart (R : Regex) : Regex := ⟨.seq [.boi, R.ast], R.flags⟩

/-- `\AR\Z` (`\Z`: end of input). -/
def startToEnd (R : Regex) : Regex := ⟨.seq [.boi, R.ast, .eoi], R.flags⟩

end Mregex.Spec
