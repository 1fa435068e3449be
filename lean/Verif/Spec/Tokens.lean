import Verif.Spec.Lang

/-!
# Tokens
-/

namespace Mregex.Spec
open Mregex

/-- One token after the other from a position on, where `first p` is where a token at `p` ends, until there is none or until one is empty. -/
inductive Takes (first : Nat → Option Nat) : Nat → List (Nat × Nat) → Prop
  | none {p} : first p = Option.none → Takes first p []
  | empty {p} : first p = some p → Takes first p [(p, p)]
  | cons {p j l} : first p = some j → p < j → Takes first j l → Takes first p ((p, j) :: l)

/-- The part from `p` to `j` is all of a stretch of characters of the first of the classes that the character at `p` belongs to. -/
def Lexeme (classes : List (Byte → Prop)) (s : List Byte) (p j : Nat) : Prop :=
  ∃ before P after, classes = before ++ P :: after ∧ (∀ Q ∈ before, ¬ CharAt s p Q) ∧ p < j ∧ (∀ t, p ≤ t → t < j → CharAt s t P) ∧ ¬ CharAt s j P

/-- The ranges are one lexeme after the other, until a character that belongs to no class, or until the end. -/
def Lexed (classes : List (Byte → Prop)) (s : List Byte) : Nat → List (Nat × Nat) → Prop
  | p, [] => ∀ P ∈ classes, ¬ CharAt s p P
  | p, (i, j) :: l => i = p ∧ Lexeme classes s p j ∧ Lexed classes s j l

/-- The ranges are side by side, from `p` to `n`. -/
def Tiles : Nat → Nat → List (Nat × Nat) → Prop
  | p, n, [] => p = n
  | p, n, (i, j) :: l => i = p ∧ i < j ∧ Tiles j n l

/-- No character belongs to two of the classes. -/
def Apart (classes : List (Byte → Prop)) : Prop := classes.Pairwise fun P Q => ∀ x, P x → ¬ Q x

end Mregex.Spec
