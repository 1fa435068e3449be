import Verif.Model.TypeSeq
import Verif.Model.Ast

/-!
# C51: lists of types
-/

namespace Mregex
open Ast

variable {α : Type}

/-- **C51**: the concatenation by blocks of four is the concatenation. -/
theorem C51_concat (l : List (List α)) : TypeSeq.concat l = l.flatten := by
  induction l using TypeSeq.concat.induct with
  | case1 => simp [TypeSeq.concat]
  | case2 a => simp [TypeSeq.concat]
  | case3 a b => simp [TypeSeq.concat]
  | case4 a b c => simp [TypeSeq.concat]
  | case5 a b c d l ih => rw [TypeSeq.concat, ih]; simp

/-- **C51**: the reversal by blocks of four is the reversal: the element at position `i` from the front is at position `i` from the back. -/
theorem C51_reverse (l : List α) : TypeSeq.reverse l = l.reverse := by
  induction l using TypeSeq.reverse.induct with
  | case1 a b => simp [TypeSeq.reverse]
  | case2 a b c => simp [TypeSeq.reverse]
  | case3 a b c d l ih => rw [TypeSeq.reverse, ih, C51_concat]; simp
  | case4 l h1 h2 h3 =>
    match l, h1, h2, h3 with
    | [], _, _, _ => rfl
    | [a], _, _, _ => rfl
    | [a, b], h1, _, _ => exact absurd rfl (h1 a b)
    | [a, b, c], _, h2, _ => exact absurd rfl (h2 a b c)
    | a :: b :: c :: d :: l, _, _, h3 => exact absurd rfl (h3 a b c d l)

/-- **C51**, positions: nothing is lost, and the order is exactly inverted. -/
theorem C51_reverse_get (l : List α) (i : Nat) (h : i < l.length) :
    (TypeSeq.reverse l).length = l.length ∧ (TypeSeq.reverse l)[l.length - 1 - i]? = l[i]? := by
  rw [C51_reverse]
  refine ⟨List.length_reverse, ?_⟩
  rw [List.getElem?_reverse (by omega)]
  congr 1
  omega

example : TypeSeq.reverse [1, 2, 3, 4, 5, 6, 7, 8, 9, 10] = [10, 9, 8, 7, 6, 5, 4, 3, 2, 1] := by simp [TypeSeq.reverse, TypeSeq.concat]

/-- **C51**, stacks: what was pushed is at the front in order, and popping takes off exactly the front. -/
theorem C51_stack (l : List α) (a : α) (l' : List α) :
    TypeSeq.front (TypeSeq.push l (.elem a)) = some a ∧ TypeSeq.pop (TypeSeq.push l (.elem a)) = l ∧
    TypeSeq.push l (.seq (a :: l')) = TypeSeq.push (TypeSeq.push l (.seq l')) (.elem a) ∧ TypeSeq.push l (.seq []) = l ∧
    (TypeSeq.isEmpty l = true ↔ l = []) :=
  ⟨rfl, rfl, rfl, rfl, by cases l <;> simp [TypeSeq.isEmpty]⟩

/-- **C51** in use: `invert` mirrors a sequence with the reversal by blocks (inversion.hpp:28-32), and the names of the groups of several nodes are concatenated
by blocks (traits.hpp:69-73). -/
theorem C51_uses (l : List Ast) :
    invert (.seq l) = .seq (TypeSeq.reverse (l.map invert)) ∧ nameSpec (.seq l) = TypeSeq.concat (l.map nameSpec) := by
  rw [C51_reverse, C51_concat]
  constructor
  · have : invertAll l = l.map invert := by
      induction l with
      | nil => rfl
      | cons a l ih => simp [invertAll, ih]
    rw [invert, this]
  · rw [nameSpec]
    induction l with
    | nil => rfl
    | cons a l ih => simp [nameSpecAll, ih]

end Mregex
