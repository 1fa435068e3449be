import Verif.Spec.Order
import Verif.Spec.Lang

/-!
# Expressions with a gap
-/

namespace Mregex.Spec
open Mregex

/-- An expression with a gap for another expression. -/
inductive Frame
  | gap
  | seq (pre : List Ast) (C : Frame) (post : List Ast)
  | alt (pre : List Ast) (C : Frame) (post : List Ast)
  | cap (id : Nat) (name : GroupName) (C : Frame)
  | rep (m : Mode) (lo : Nat) (hi : Bound) (C : Frame)
  | look (d : LookDir) (C : Frame)
  | notLook (d : LookDir) (C : Frame)

/-- Fill the gap. -/
def Frame.fill : Frame → Ast → Ast
  | .gap, X => X
  | .seq pre C post, X => .seq (pre ++ C.fill X :: post)
  | .alt pre C post, X => .alt (pre ++ C.fill X :: post)
  | .cap id name C, X => .cap id name (C.fill X)
  | .rep m lo hi C, X => .rep m lo hi (C.fill X)
  | .look d C, X => .look d (C.fill X)
  | .notLook d C, X => .neg (.look d (C.fill X))

/-- Under every condition on the position where the match ends, `X` and `Y` prefer the same end of a match, if they begin at the same position. -/
def SameChoices (f : Flags) (fwd inv : Bool) (X Y : Ast) : Prop :=
  ∀ s p, p ≤ s.length → ∀ A : Nat → Bool, (ends f s X fwd inv p).find? A = (ends f s Y fwd inv p).find? A

/-- The ways in which expressions are read: forwards or backwards, from left to right or (`inv`) from right to left.  Forward iterators have the first one
only. -/
def Readings (cat : Cat) (fwd inv : Bool) : Prop := cat ≠ .forward ∨ (fwd = true ∧ inv = false)

end Mregex.Spec
