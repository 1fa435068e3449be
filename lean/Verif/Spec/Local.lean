import Verif.Spec.Lang

/-!
# Regexes whose matches do not depend on the text around them
-/

namespace Mregex.Spec
open Mregex

mutual
/-- No anchors, word boundaries, lookarounds and backreferences. -/
def selfContained : Ast → Bool
  | .bol | .boi | .eol | .eoi | .wordB | .look _ _ | .backref _ | .namedBackref _ => false
  | .seq l | .alt l | .set l => selfContainedAll l
  | .neg a | .cap _ _ a | .rep _ _ _ a => selfContained a
  | _ => true
def selfContainedAll : List Ast → Bool
  | [] => true
  | a :: l => selfContained a && selfContainedAll l
end

end Mregex.Spec
