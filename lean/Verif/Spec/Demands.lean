import Verif.Model.Demands
import Verif.Spec.Instances
import Verif.Spec.Static
import Verif.Spec.Syntax

/-!
# Programs whose instantiations are all in order
-/

namespace Mregex.Spec
open Mregex Ast

/-- All functions that a call of `x` instantiates are in order. -/
def FullyFine (S : InstSettings) (E : Env) (x : Inst) : Prop := ∀ y, Needed S x y → y.fine E = true

mutual
/-- No sequence has 2^63 parts or more. -/
def ShortSeqs : Ast → Prop
  | .seq l => l.length < 2 ^ 63 ∧ ShortSeqsAll l
  | .alt l => ShortSeqsAll l
  | .cap _ _ a | .neg a | .look _ a | .rep _ _ _ a => ShortSeqs a
  | _ => True
def ShortSeqsAll : List Ast → Prop
  | [] => True
  | a :: l => ShortSeqs a ∧ ShortSeqsAll l
end

mutual
/-- No part that takes one character, of whatever kind, is to be repeated 2^63 times at least. -/
def CountsFit : Ast → Prop
  | .seq l | .alt l => CountsFits l
  | .cap _ _ a | .neg a | .look _ a => CountsFit a
  | .rep _ lo _ a => (triv a = true → lo < 2 ^ 63) ∧ CountsFit a
  | _ => True
def CountsFits : List Ast → Prop
  | [] => True
  | a :: l => CountsFit a ∧ CountsFits l
end

mutual
/-- Nothing is repeated zero times. -/
def NoZero : Ast → Prop
  | .seq l | .alt l => NoZeros l
  | .cap _ _ a | .neg a | .look _ a => NoZero a
  | .rep _ lo hi a => ¬(lo = 0 ∧ hi = .fin 0) ∧ NoZero a
  | _ => True
def NoZeros : List Ast → Prop
  | [] => True
  | a :: l => NoZero a ∧ NoZeros l
end

/-- All digits in a row, wherever they stand in a pattern, are the numeral of a number less than 2^63. -/
def NumeralsFit (w : List Byte) : Prop := ∀ v, v <:+: w → (∀ d ∈ v, DecDigit d) → decimal v < 2 ^ 63

end Mregex.Spec
