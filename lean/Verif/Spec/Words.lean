import Verif.Spec.Order

/-!
# Runs of characters
-/

namespace Mregex.Spec
open Mregex

/-- The part from `i` to `j` is a longest stretch of characters with the property `P`: not empty, and neither the character before nor the one after it has the
property. -/
def Stretch (P : Byte → Prop) (s : List Byte) (i j : Nat) : Prop :=
  i < j ∧ (∀ t, i ≤ t → t < j → CharAt s t P) ∧ ¬ CharBefore s i P ∧ ¬ CharAt s j P

/-- The ranges are exactly those with the property `Q`, from left to right. -/
def Enumerates (Q : Nat → Nat → Prop) (ranges : List (Nat × Nat)) : Prop :=
  (∀ i j, (i, j) ∈ ranges ↔ Q i j) ∧ ranges.Pairwise (fun x y => x.2 < y.1)

end Mregex.Spec
