import Verif.Model.Ast

/-!
# Writing possessive quantifiers as atomic groups
-/

namespace Mregex.Spec
open Mregex Ast

/-- Is `X{lo,hi}+` worth rewriting?  Atomic groups (`lo = hi = 1`) are what it is rewritten to, and the unbounded
repetition of something that can match the empty text is left alone. -/
def expandable (lo : Nat) (hi : Bound) (X : Ast) : Bool :=
  !(lo == 1 && hi == .fin 1) && !(hi == .inf && zlm X)

mutual
/-- Replace `X{lo,hi}+` by `(?>X{lo,hi})` everywhere. -/
def expandPossessive : Ast → Ast
  | .rep m lo hi a =>
    if m = .possessive ∧ expandable lo hi a = true then atomic (.rep .greedy lo hi (expandPossessive a))
    else .rep m lo hi (expandPossessive a)
  | .seq l => .seq (expandPossessiveAll l)
  | .alt l => .alt (expandPossessiveAll l)
  | .neg a => .neg (expandPossessive a)
  | .cap id n a => .cap id n (expandPossessive a)
  | .look d a => .look d (expandPossessive a)
  | a => a
def expandPossessiveAll : List Ast → List Ast
  | [] => []
  | a :: l => expandPossessive a :: expandPossessiveAll l
end

end Mregex.Spec
