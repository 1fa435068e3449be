import Mathlib.Computability.RegularExpressions
import Mathlib.Computability.DFA
import Verif.Model.Methods

/-!
# Regular languages

In terms of Mathlib's automata and regular expressions.
-/

namespace Mregex.Spec
open Mregex

/-- The texts for which a method reports a match. -/
def accepted (R : Regex) (M : Method) (cat : Cat) : Language Byte := {s | ∃ res, R.invoke M cat s = some res ∧ res.matched = true}

/-- Regular expressions in the sense of the theory of formal languages, as trees of this library. -/
def ofExpression : RegularExpression Byte → Ast
  | .zero => .set []
  | .epsilon => .empty
  | .char c => .lit c
  | .plus P Q => .alt [ofExpression P, ofExpression Q]
  | .comp P Q => .seq [ofExpression P, ofExpression Q]
  | .star P => .rep .greedy 0 .inf (ofExpression P)

end Mregex.Spec
