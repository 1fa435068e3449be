import Verif.Spec.Proc

/-!
# References that follow their group at once

Where a reference comes directly after the group it refers to, what it reads is known: what the group has just matched.
-/

namespace Mregex.Spec
open Mregex

/-- A reference, by its number or its name, to the group number `k` with the name `n`. -/
inductive RefersTo (k : Nat) (n : GroupName) : Ast → Prop
  | number : RefersTo k n (.backref k)
  | name {m} : n = some m → RefersTo k n (.namedBackref m)

/-- The expression is the text `w`. -/
inductive IsText : List Byte → Ast → Prop
  | letter (c : Byte) : IsText [c] (.lit c)
  | word (w : List Byte) : IsText w (.seq (w.map .lit))

/-- The second expression does without a reference of the first one: `(?=(X))\k` has become the atomic group `(?>(X))`, or `(w)\k` has become `(w)w`.  The
place is not inside a lookbehind. -/
inductive Told : Ast → Ast → Prop
  | atomic (pre post : List Ast) (k : Nat) (n : GroupName) (X : Ast) {ref : Ast} : RefersTo k n ref →
      Told (.seq (pre ++ .look .ahead (.cap k n X) :: ref :: post)) (.seq (pre ++ .rep .possessive 1 (.fin 1) (.cap k n X) :: post))
  | word (pre post : List Ast) (k : Nat) (n : GroupName) {w : List Byte} {B ref : Ast} : IsText w B → RefersTo k n ref →
      Told (.seq (pre ++ .cap k n B :: ref :: post)) (.seq (pre ++ .cap k n B :: (w.map .lit ++ post)))
  | seq (pre post : List Ast) {a b} : Told a b → Told (.seq (pre ++ a :: post)) (.seq (pre ++ b :: post))
  | alt (pre post : List Ast) {a b} : Told a b → Told (.alt (pre ++ a :: post)) (.alt (pre ++ b :: post))
  | cap (k : Nat) (n : GroupName) {a b} : Told a b → Told (.cap k n a) (.cap k n b)
  | rep (m : Mode) (lo : Nat) (hi : Bound) {a b} : Told a b → Told (.rep m lo hi a) (.rep m lo hi b)
  | ahead {a b} : Told a b → Told (.look .ahead a) (.look .ahead b)
  | notAhead {a b} : Told a b → Told (.neg (.look .ahead a)) (.neg (.look .ahead b))

end Mregex.Spec
