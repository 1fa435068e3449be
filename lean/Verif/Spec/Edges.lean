import Verif.Spec.Lengths

/-!
# What a match begins with, ends with and contains

Read off the expression.
-/

namespace Mregex.Spec
open Mregex

mutual
/-- Without lookarounds and negated assertions.  References stay, they stand for any text. -/
def loosen : Ast → Ast
  | .look _ _ => .empty
  | .neg a => if assertion a then .empty else .neg a
  | .seq l => .seq (loosenAll l)
  | .alt l => .alt (loosenAll l)
  | .cap id name a => .cap id name (loosen a)
  | .rep m lo hi a => .rep m lo hi (loosen a)
  | a => a
def loosenAll : List Ast → List Ast
  | [] => []
  | a :: l => loosen a :: loosenAll l
end

mutual
/-- A text that is taken and not empty can begin with `x`. -/
def starts (f : Flags) : Ast → Byte → Bool
  | .neg a, x => !assertion a && accepts f (.neg a) x
  | .seq l, x => startsAll f l x
  | .alt l, x => startsAny f l x
  | .cap _ _ a, x => starts f a x
  | .rep _ _ hi a, x => hi != .fin 0 && starts f a x
  | .backref _, _ | .namedBackref _, _ => true
  | a, x => accepts f a x
def startsAll (f : Flags) : List Ast → Byte → Bool
  | [], _ => false
  | a :: l, x => starts f a x || (shortest a == 0 && startsAll f l x)
def startsAny (f : Flags) : List Ast → Byte → Bool
  | [], _ => false
  | a :: l, x => starts f a x || startsAny f l x
end

mutual
/-- A text that is taken and not empty can end with `x`. -/
def finishes (f : Flags) : Ast → Byte → Bool
  | .neg a, x => !assertion a && accepts f (.neg a) x
  | .seq l, x => finishesAll f l x
  | .alt l, x => finishesAny f l x
  | .cap _ _ a, x => finishes f a x
  | .rep _ _ hi a, x => hi != .fin 0 && finishes f a x
  | .backref _, _ | .namedBackref _, _ => true
  | a, x => accepts f a x
def finishesAll (f : Flags) : List Ast → Byte → Bool
  | [], _ => false
  | a :: l, x => finishesAll f l x || (shortestAll l == 0 && finishes f a x)
def finishesAny (f : Flags) : List Ast → Byte → Bool
  | [], _ => false
  | a :: l, x => finishes f a x || finishesAny f l x
end

/-- All bytes. -/
def allBytes : List Byte := (List.range 256).map (BitVec.ofNat 8)

mutual
/-- Every text that is taken contains a character with the property `P`. -/
def needs (f : Flags) (P : Byte → Bool) : Ast → Bool
  | .seq l => needsAll f P l
  | .alt l => !l.isEmpty && needsEach f P l
  | .cap _ _ a => needs f P a
  | .rep _ lo _ a => decide (0 < lo) && needs f P a
  | .neg a => !assertion a && allBytes.all fun x => !accepts f (.neg a) x || P x
  | .lit c => allBytes.all fun x => !accepts f (.lit c) x || P x
  | .range c d => allBytes.all fun x => !accepts f (.range c d) x || P x
  | .wildcard => allBytes.all fun x => !accepts f .wildcard x || P x
  | .set l => allBytes.all fun x => !accepts f (.set l) x || P x
  | _ => false
def needsAll (f : Flags) (P : Byte → Bool) : List Ast → Bool
  | [] => false
  | a :: l => needs f P a || needsAll f P l
def needsEach (f : Flags) (P : Byte → Bool) : List Ast → Bool
  | [] => true
  | a :: l => needs f P a && needsEach f P l
end

/-- The text from `b` to `e` is not shorter than the expression demands, begins and ends with a character that the expression can begin and end with, and contains
what the expression needs. -/
structure Edges (f : Flags) (a : Ast) (s : List Byte) (b e : Nat) : Prop where
  le : b + shortest a ≤ e
  within : e ≤ s.length
  first : b < e → ∃ x : Byte, s[b]? = some x ∧ starts f a x = true
  last : b < e → ∃ x : Byte, s[e - 1]? = some x ∧ finishes f a x = true
  inner : ∀ P : Byte → Bool, needs f P a = true → ∃ (i : Nat) (x : Byte), b ≤ i ∧ i < e ∧ s[i]? = some x ∧ P x = true

end Mregex.Spec
