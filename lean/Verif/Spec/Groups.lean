import Verif.Spec.Lang

/-!
# Capturing groups of a regex
-/

namespace Mregex.Spec
open Mregex

/-- `body` is the sub-expression of a capturing group of `a` that carries the number `k`. -/
inductive GroupBody : Ast → Nat → Ast → Prop
  | here {k name body} : GroupBody (.cap k name body) k body
  | cap {k id name a body} : GroupBody a k body → GroupBody (.cap id name a) k body
  | neg {k a body} : GroupBody a k body → GroupBody (.neg a) k body
  | rep {k m lo hi a body} : GroupBody a k body → GroupBody (.rep m lo hi a) k body
  | look {k d a body} : GroupBody a k body → GroupBody (.look d a) k body
  | seq {k l a body} : a ∈ l → GroupBody a k body → GroupBody (.seq l) k body
  | alt {k l a body} : a ∈ l → GroupBody a k body → GroupBody (.alt l) k body
  | set {k l a body} : a ∈ l → GroupBody a k body → GroupBody (.set l) k body

mutual
/-- The numbers of the capturing groups of `a`, in textual order. -/
def groupIds : Ast → List Nat
  | .cap id _ a => id :: groupIds a
  | .seq l | .alt l | .set l => groupIdsAll l
  | .neg a | .rep _ _ _ a | .look _ a => groupIds a
  | _ => []
def groupIdsAll : List Ast → List Nat
  | [] => []
  | a :: l => groupIds a ++ groupIdsAll l
end

/-- `a` contains a capturing group with the number `k` and this name (`none`: unnamed). -/
inductive HasGroup : Ast → Nat → GroupName → Prop
  | here {k name a} : HasGroup (.cap k name a) k name
  | cap {k name id name' a} : HasGroup a k name → HasGroup (.cap id name' a) k name
  | neg {k name a} : HasGroup a k name → HasGroup (.neg a) k name
  | rep {k name m lo hi a} : HasGroup a k name → HasGroup (.rep m lo hi a) k name
  | look {k name d a} : HasGroup a k name → HasGroup (.look d a) k name
  | seq {k name l a} : a ∈ l → HasGroup a k name → HasGroup (.seq l) k name
  | alt {k name l a} : a ∈ l → HasGroup a k name → HasGroup (.alt l) k name
  | set {k name l a} : a ∈ l → HasGroup a k name → HasGroup (.set l) k name

mutual
/-- References by this name replaced by references by number. -/
def byNumber (name : List Byte) (k : Nat) : Ast → Ast
  | .namedBackref n => if n = name then .backref k else .namedBackref n
  | .seq l => .seq (byNumberAll name k l)
  | .alt l => .alt (byNumberAll name k l)
  | .set l => .set (byNumberAll name k l)
  | .neg a => .neg (byNumber name k a)
  | .cap id n a => .cap id n (byNumber name k a)
  | .rep m lo hi a => .rep m lo hi (byNumber name k a)
  | .look d a => .look d (byNumber name k a)
  | a => a
def byNumberAll (name : List Byte) (k : Nat) : List Ast → List Ast
  | [] => []
  | a :: l => byNumber name k a :: byNumberAll name k l
end

end Mregex.Spec
