import Mathlib.Computability.Language
import Verif.Spec.Local

/-!
# The formal language of a regex

For regexes that do not look at their surroundings, in terms of Mathlib's Kleene algebra of languages: there are no positions.
-/

namespace Mregex.Spec
open Mregex
open scoped Computability

/-- The texts of one character that satisfies `P`. -/
def oneOf (P : Byte → Prop) : Language Byte := {w | ∃ x, w = [x] ∧ P x}

mutual
/-- The language of a regex.  Anchors, lookarounds and references have none. -/
noncomputable def denote (f : Flags) : Ast → Language Byte
  | .empty => 1
  | .lit c => oneOf (CharEq f.icase c)
  | .range a b => oneOf fun x => ∃ y : Byte, a.toNat ≤ y.toNat ∧ y.toNat ≤ b.toNat ∧ CharEq f.icase y x
  | .wildcard => oneOf fun x => f.dotall = true ∨ ¬LineBreak x
  | .set l => oneOf (fun _ => True) ⊓ denoteAny f l
  | .neg a => oneOf (fun _ => True) - denote f a
  | .seq l => denoteAll f l
  | .alt l => denoteAny f l
  | .cap _ _ a => denote f a
  | .rep _ lo .inf a => denote f a ^ lo * (denote f a)∗
  | .rep _ lo (.fin hi) a => if lo ≤ hi then denote f a ^ lo * (1 + denote f a) ^ (hi - lo) else 0
  | _ => 0
/-- Product. -/
noncomputable def denoteAll (f : Flags) : List Ast → Language Byte
  | [] => 1
  | a :: l => denote f a * denoteAll f l
/-- Sum. -/
noncomputable def denoteAny (f : Flags) : List Ast → Language Byte
  | [] => 0
  | a :: l => denote f a + denoteAny f l
end

end Mregex.Spec
