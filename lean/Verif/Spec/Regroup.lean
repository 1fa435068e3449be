import Verif.Model.Methods
import Verif.Spec.Groups

/-!
# Other groups

The same regex with other capturing groups: some become plain parentheses, the others get a new number and name.
-/

namespace Mregex.Spec
open Mregex

mutual
/-- The group with the number `k` gets the number and name `σ k`; `none`: it does not capture any more. -/
def regroup (σ : Nat → Option (Nat × GroupName)) : Ast → Ast
  | .cap id _ a =>
    match σ id with
    | some (id', name) => .cap id' name (regroup σ a)
    | none => regroup σ a
  | .seq l => .seq (regroupAll σ l)
  | .alt l => .alt (regroupAll σ l)
  | .set l => .set (regroupAll σ l)
  | .neg a => .neg (regroup σ a)
  | .rep m lo hi a => .rep m lo hi (regroup σ a)
  | .look d a => .look d (regroup σ a)
  | a => a
def regroupAll (σ : Nat → Option (Nat × GroupName)) : List Ast → List Ast
  | [] => []
  | a :: l => regroup σ a :: regroupAll σ l
end

/-- Different groups get different numbers, and no group gets the number 0. -/
def Renumbering (σ : Nat → Option (Nat × GroupName)) : Prop :=
  (∀ k k' j n n', σ k = some (j, n) → σ k' = some (j, n') → k = k') ∧ ∀ k n, σ k ≠ some (0, n)

/-- The results of two calls for `a` agree: the verdict, the range of a match, and what the groups `k` and `σ k` hold (also after a failure). -/
def AgreeOn (σ : Nat → Option (Nat × GroupName)) (a : Ast) (res res' : Result) : Prop :=
  res.matched = res'.matched ∧ (res.matched = true → res.group 0 = res'.group 0) ∧
  ∀ k n j n', k ≠ 0 → HasGroup a k n → σ k = some (j, n') → ∃ g, res.group k = some g ∧ res'.group j = some g

/-- The lists of results agree, one by one. -/
inductive AgreeAll (σ : Nat → Option (Nat × GroupName)) (a : Ast) : List Result → List Result → Prop
  | nil : AgreeAll σ a [] []
  | cons {res res' l l'} : AgreeOn σ a res res' → AgreeAll σ a l l' → AgreeAll σ a (res :: l) (res' :: l')

end Mregex.Spec
