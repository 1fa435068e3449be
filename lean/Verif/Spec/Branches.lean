import Verif.Spec.Variants

/-!
# Laws for regexes without references

Rewriting of alternations that leaves regexes without references unchanged, in addition to the laws of `Variant`.
-/

namespace Mregex
open Ast Spec

/-- One step of rewriting, at any place of the expression. -/
inductive Rebranch : Ast → Ast → Prop
  -- places
  | seq {a b : Ast} (pre post : List Ast) : Rebranch a b → Rebranch (.seq (pre ++ a :: post)) (.seq (pre ++ b :: post))
  | alt {a b : Ast} (pre post : List Ast) : Rebranch a b → Rebranch (.alt (pre ++ a :: post)) (.alt (pre ++ b :: post))
  | cap {a b : Ast} (id : Nat) (name : GroupName) : Rebranch a b → Rebranch (.cap id name a) (.cap id name b)
  | rep {a b : Ast} (m : Mode) (lo : Nat) (hi : Bound) : Rebranch a b → Rebranch (.rep m lo hi a) (.rep m lo hi b)
  | look {a b : Ast} (d : LookDir) : Rebranch a b → Rebranch (.look d a) (.look d b)
  | neg {a b : Ast} : Test a → Rebranch a b → Rebranch (.neg a) (.neg b)
  -- laws
  /-- Parentheses around branches, whatever the branches are. -/
  | dissolve (pre l post : List Ast) : l ≠ [] → Rebranch (.alt (pre ++ .alt l :: post)) (.alt (pre ++ l ++ post))
  /-- A branch without groups that is repeated. -/
  | twice (pre : List Ast) (a : Ast) (post : List Ast) : captureCount a = 0 → pre ++ post ≠ [] ∨ ¬ Test a →
      Rebranch (.alt (pre ++ a :: a :: post)) (.alt (pre ++ a :: post))

/-- Chains of steps: notational variants, and the laws for alternations where there are no references. -/
inductive Relaid (f : Flags) : Ast → Ast → Prop
  | variant {a b : Ast} : Variant f false a b → Relaid f a b
  | rebranch {a b : Ast} : noBackref a = true → Rebranch a b → Relaid f a b
  | symm {a b : Ast} : Relaid f a b → Relaid f b a
  | trans {a b c : Ast} : Relaid f a b → Relaid f b c → Relaid f a c

end Mregex
