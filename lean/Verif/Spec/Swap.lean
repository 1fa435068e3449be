import Verif.Model.Ast

/-!
# Exchanging greedy and lazy quantifiers
-/

namespace Mregex.Spec
open Mregex

/-- Exchange greedy and lazy if `b`; possessive stays. -/
def swapMode (b : Bool) : Mode → Mode
  | .greedy => if b then .lazy else .greedy
  | .lazy => if b then .greedy else .lazy
  | .possessive => .possessive

mutual
/-- Exchange greedy and lazy quantifiers everywhere (if `b`). -/
def swapGreed (b : Bool) : Ast → Ast
  | .rep m lo hi a => .rep (swapMode b m) lo hi (swapGreed b a)
  | .set l => .set (swapGreedAll b l)
  | .seq l => .seq (swapGreedAll b l)
  | .alt l => .alt (swapGreedAll b l)
  | .neg a => .neg (swapGreed b a)
  | .cap id n a => .cap id n (swapGreed b a)
  | .look d a => .look d (swapGreed b a)
  | a => a
def swapGreedAll (b : Bool) : List Ast → List Ast
  | [] => []
  | a :: l => swapGreed b a :: swapGreedAll b l
end

end Mregex.Spec
