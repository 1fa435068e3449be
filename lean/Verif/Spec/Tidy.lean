import Verif.Spec.Proc
import Verif.Spec.Groups

/-!
# Groups that leave nothing behind
-/

namespace Mregex.Spec
open Mregex

mutual
/-- The groups inside of lookarounds, negations, atomic groups and possessive quantifiers. -/
def innerGroups : Ast → List Nat
  | .neg a | .look _ a => groupIds a
  | .rep m _ _ a => match m with | .possessive => groupIds a | _ => innerGroups a
  | .cap _ _ a => innerGroups a
  | .seq l | .alt l => innerGroupsAll l
  | _ => []
def innerGroupsAll : List Ast → List Nat
  | [] => []
  | a :: l => innerGroups a ++ innerGroupsAll l
end

mutual
/-- The groups that are referred to; `ν` is the meaning of names. -/
def referred (ν : List Byte → Nat) : Ast → List Nat
  | .backref k => [k]
  | .namedBackref n => [ν n]
  | .neg a | .look _ a | .rep _ _ _ a | .cap _ _ a => referred ν a
  | .seq l | .alt l => referredAll ν l
  | _ => []
def referredAll (ν : List Byte → Nat) : List Ast → List Nat
  | [] => []
  | a :: l => referred ν a ++ referredAll ν l
end

end Mregex.Spec
