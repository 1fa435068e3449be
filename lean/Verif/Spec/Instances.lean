import Verif.Model.Instances
import Verif.Spec.Compile

/-!
# What is instantiated
-/

namespace Mregex.Spec
open Mregex Ast

/-- The functions that have to be instantiated for a call of `x`: `x` and what is called in the body of one of them. -/
inductive Needed (S : InstSettings) (x : Inst) : Inst → Prop
  | root : Needed S x x
  | call {y z} : Needed S x y → z ∈ y.needs S → Needed S x z

/-- The repetitions above the lower bound, each of which is another copy; one if there is no upper bound, for a loop. -/
def spanOf (lo : Nat) : Bound → Nat
  | .inf => 1
  | .fin h => h - lo

/-- How often the body of a quantifier occurs in what a quantifier stands for: `lo` copies when they are written out, else at most two; and one for each further repetition, or one for a loop. -/
def copiesOf (unroll : Bool) (lo : Nat) (hi : Bound) : Nat :=
  (if unroll then lo else min lo 2) + spanOf lo hi

mutual
/-- Every node once for each copy. -/
def instWeight (u : Bool) : Ast → Nat
  | .seq l | .alt l => instWeights u l + 1
  | .cap _ _ a | .neg a | .look _ a => instWeight u a + 1
  | .rep _ lo hi a => copiesOf u lo hi * (instWeight u a + 1) + 3
  | _ => 1
def instWeights (u : Bool) : List Ast → Nat
  | [] => 0
  | a :: l => (instWeight u a + 1) + instWeights u l
end

mutual
/-- How deep quantifiers are nested. -/
def repNest : Ast → Nat
  | .seq l | .alt l => repNests l
  | .cap _ _ a | .neg a | .look _ a => repNest a
  | .rep _ _ _ a => repNest a + 1
  | _ => 0
def repNests : List Ast → Nat
  | [] => 0
  | a :: l => max (repNest a) (repNests l)
end

mutual
/-- No quantifier stands for more than `B` copies. -/
def CopiesLe (u : Bool) (B : Nat) : Ast → Prop
  | .seq l | .alt l => CopiesLes u B l
  | .cap _ _ a | .neg a | .look _ a => CopiesLe u B a
  | .rep _ lo hi a => copiesOf u lo hi ≤ B ∧ CopiesLe u B a
  | _ => True
def CopiesLes (u : Bool) (B : Nat) : List Ast → Prop
  | [] => True
  | a :: l => CopiesLe u B a ∧ CopiesLes u B l
end

end Mregex.Spec
