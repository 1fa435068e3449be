import Verif.Model.Xpr

/-!
# Expressions without flattening

The tree of an expression in which every function makes one node out of its arguments.
-/

namespace Mregex.Spec
open Mregex Ast Xpr

mutual
def plain : Expr → Ast
  | .term t => t.node
  | .chr c => .lit c
  | .str w => .seq (w.map .lit)
  | .range a b => .range a b
  | .group id => .backref id
  | .groupNamed name => .namedBackref name
  | .regex p =>
    match parse p with
    | .result a _ => a
    | _ => .empty
  | .concat l => .seq (plainAll l)
  | .either l => .alt (plainAll l)
  | .atomic l => .rep .possessive 1 (.fin 1) (.seq (plainAll l))
  | .capture id name l => .cap id name (.seq (plainAll l))
  | .between a b m l => .rep m a (.fin b) (.seq (plainAll l))
  | .atLeast n m l => .rep m n .inf (.seq (plainAll l))
  | .exactly n m l => .rep m n (.fin n) (.seq (plainAll l))
  | .zeroOrMore m l => .rep m 0 .inf (.seq (plainAll l))
  | .oneOrMore m l => .rep m 1 .inf (.seq (plainAll l))
  | .maybe m l => .rep m 0 (.fin 1) (.seq (plainAll l))
  | .ahead l => .look .ahead (.seq (plainAll l))
  | .behind l => .look .behind (.seq (plainAll l))
  | .negate e | .not e => .neg (plain e)
  | .shiftRight e e' => .seq [plain e, plain e']
  | .bitOr e e' => .alt [plain e, plain e']
  | .star e => .rep .greedy 0 .inf (plain e)
  | .plus e => .rep .greedy 1 .inf (plain e)
  | .addFlags _ e | .clearFlags e => plain e
def plainAll : List Expr → List Ast
  | [] => []
  | e :: l => plain e :: plainAll l
end

end Mregex.Spec
