import Verif.Model.Ast

/-!
# Sizes
-/

namespace Mregex.Spec
open Mregex

/-- The occurrences of two characters. -/
def marks (pat : List Byte) : Nat := pat.countP fun c => c == ch '{' || c == ch '-'

mutual
/-- The number of nodes. -/
def nodeCount : Ast → Nat
  | .seq l | .alt l | .set l => nodeCounts l + 1
  | .cap _ _ a | .neg a | .rep _ _ _ a | .look _ a => nodeCount a + 1
  | _ => 1
def nodeCounts : List Ast → Nat
  | [] => 0
  | a :: l => nodeCount a + nodeCounts l
end

end Mregex.Spec
