import Verif.Spec.Regroup
import Verif.Spec.Proc

/-!
# Other groups, and references to them
-/

namespace Mregex.Spec
open Mregex

mutual
/-- Like `regroup`, and references follow the groups: `ν` is the meaning of names, and a reference to a group that gets a name is written with the
name if it was written with a name before. -/
def rewire (σ : Nat → Option (Nat × GroupName)) (ν : List Byte → Nat) : Ast → Ast
  | .cap id _ a =>
    match σ id with
    | some (id', name) => .cap id' name (rewire σ ν a)
    | none => rewire σ ν a
  | .seq l => .seq (rewireAll σ ν l)
  | .alt l => .alt (rewireAll σ ν l)
  | .set l => .set (rewireAll σ ν l)
  | .neg a => .neg (rewire σ ν a)
  | .rep m lo hi a => .rep m lo hi (rewire σ ν a)
  | .look d a => .look d (rewire σ ν a)
  | .backref k =>
    match σ k with
    | some (j, _) => .backref j
    | none => .backref k
  | .namedBackref n =>
    match σ (ν n) with
    | some (_, some n') => .namedBackref n'
    | some (j, none) => .backref j
    | none => .namedBackref n
  | a => a
def rewireAll (σ : Nat → Option (Nat × GroupName)) (ν : List Byte → Nat) : List Ast → List Ast
  | [] => []
  | a :: l => rewire σ ν a :: rewireAll σ ν l
end

mutual
/-- The groups that are referred to stay groups. -/
def refersKept (σ : Nat → Option (Nat × GroupName)) (ν : List Byte → Nat) : Ast → Bool
  | .cap _ _ a | .neg a | .rep _ _ _ a | .look _ a => refersKept σ ν a
  | .seq l | .alt l | .set l => refersKeptAll σ ν l
  | .backref k => (σ k).isSome
  | .namedBackref n => (σ (ν n)).isSome
  | _ => true
def refersKeptAll (σ : Nat → Option (Nat × GroupName)) (ν : List Byte → Nat) : List Ast → Bool
  | [] => true
  | a :: l => refersKept σ ν a && refersKeptAll σ ν l
end

mutual
/-- No alternative of an alternation is a single character without its groups that was none with them. -/
def branchesKept (σ : Nat → Option (Nat × GroupName)) (ν : List Byte → Nat) : Ast → Bool
  | .cap _ _ a | .neg a | .rep _ _ _ a | .look _ a => branchesKept σ ν a
  | .seq l | .set l => branchesKeptAll σ ν l
  | .alt l => branchesKeptAll σ ν l && l.all (fun b => character b || !character (rewire σ ν b))
  | _ => true
def branchesKeptAll (σ : Nat → Option (Nat × GroupName)) (ν : List Byte → Nat) : List Ast → Bool
  | [] => true
  | a :: l => branchesKept σ ν a && branchesKeptAll σ ν l
end

end Mregex.Spec
