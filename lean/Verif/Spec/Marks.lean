import Verif.Model.Xpr

/-!
# Groups and references in the order of writing
-/

namespace Mregex.Spec
open Mregex Xpr

/-- What can be written about groups. -/
inductive Mark
  | opens (id : Nat) (name : GroupName)
  | refers (id : Nat)
  | refersByName (name : List Byte)
  deriving DecidableEq

mutual
/-- The groups and references of a tree, from left to right. -/
def groupMarks : Ast → List Mark
  | .cap id name a => .opens id name :: groupMarks a
  | .backref id => [.refers id]
  | .namedBackref name => [.refersByName name]
  | .set l | .seq l | .alt l => groupMarksAll l
  | .neg a | .rep _ _ _ a | .look _ a => groupMarks a
  | _ => []
def groupMarksAll : List Ast → List Mark
  | [] => []
  | a :: l => groupMarks a ++ groupMarksAll l
end

mutual
/-- The groups and references of a C++ expression, from left to right; a pattern inside has those of its tree. -/
def marksOf : Expr → List Mark
  | .term _ | .chr _ | .str _ | .range _ _ => []
  | .group id => [.refers id]
  | .groupNamed name => [.refersByName name]
  | .regex p => match parse p with
    | .result a .success => groupMarks a
    | _ => []
  | .capture id name l => .opens id name :: marksOfAll l
  | .concat l | .either l | .atomic l | .between _ _ _ l | .atLeast _ _ l | .exactly _ _ l | .zeroOrMore _ l | .oneOrMore _ l
  | .maybe _ l | .ahead l | .behind l => marksOfAll l
  | .negate e | .not e | .star e | .plus e | .addFlags _ e | .clearFlags e => marksOf e
  | .shiftRight e e' | .bitOr e e' => marksOf e ++ marksOf e'
def marksOfAll : List Expr → List Mark
  | [] => []
  | e :: l => marksOf e ++ marksOfAll l
end

end Mregex.Spec
