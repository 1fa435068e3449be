import Verif.Spec.Proc

/-!
# The mirror image of a call
-/

namespace Mregex.Spec
open Mregex

mutual
/-- References are read in at most one lookbehind: none of them is in a lookbehind.  With `inv`, the regex is the body of a lookbehind: there
the lookaheads become lookbehinds, and the lookbehinds lookaheads with a body in the usual order. -/
def refsNear : Bool → Ast → Bool
  | inv, .look d a => if (d == .ahead) == !inv then refsNear false a else noBackref a
  | inv, .seq l => refsNearAll inv l
  | inv, .alt l => refsNearAll inv l
  | inv, .neg a => refsNear inv a
  | inv, .cap _ _ a => refsNear inv a
  | inv, .rep _ _ _ a => refsNear inv a
  | _, _ => true
def refsNearAll : Bool → List Ast → Bool
  | _, [] => true
  | inv, a :: l => refsNear inv a && refsNearAll inv l
end

/-- What a group holds after a call on a text of length `n` and what it holds after the mirror image of the call: nothing both times, or a range
and its mirror image, or two empty ranges. -/
def Opposite (n : Nat) : Cap → Cap → Prop
  | none, none => True
  | some (b, e), some (b', e') => (b ≤ n ∧ e ≤ n ∧ b' = n - e ∧ e' = n - b) ∨ (b = e ∧ b' = e')
  | _, _ => False

/-- `(?<=X)` or `(?<!X)`. -/
def lookBack (positive : Bool) (X : Ast) : Ast := if positive then .look .behind X else .neg (.look .behind X)

/-- `(?=X)` or `(?!X)`. -/
def lookOn (positive : Bool) (X : Ast) : Ast := if positive then .look .ahead X else .neg (.look .ahead X)

end Mregex.Spec
