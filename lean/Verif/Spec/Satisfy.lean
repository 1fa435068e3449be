import Verif.Spec.Says
import Verif.Spec.Printing

/-!
# Satisfiability

Formulas in conjunctive normal form with three literals in every clause, and the patterns that stand for them.
-/

namespace Mregex.Spec
open Mregex

/-- A variable or the negation of one. -/
structure Literal where
  var : Nat
  positive : Bool

/-- One of three literals holds. -/
structure Clause where
  first : Literal
  second : Literal
  third : Literal

def Literal.Holds (v : Nat → Bool) (l : Literal) : Prop := v l.var = l.positive

def Clause.Holds (v : Nat → Bool) (c : Clause) : Prop := c.first.Holds v ∨ c.second.Holds v ∨ c.third.Holds v

/-- The literals of the clause are about the variables `0, …, n - 1`. -/
def Clause.Within (n : Nat) (c : Clause) : Prop := c.first.var < n ∧ c.second.var < n ∧ c.third.var < n

/-- The values `v` of the variables satisfy all clauses. -/
def Satisfies (v : Nat → Bool) (φ : List Clause) : Prop := ∀ c ∈ φ, c.Holds v

/-! ### The pattern and the text -/

/-- The number of the group for a literal. -/
def Literal.group (l : Literal) : Nat := if l.positive then 2 * l.var + 1 else 2 * l.var + 2

/-- `\1` -/
def Literal.pattern (l : Literal) : List Byte := txt "\\" ++ numeralText l.group

/-- `(?:\1|\4|\6),` -/
def Clause.pattern (c : Clause) : List Byte :=
  txt "(?:" ++ (c.first.pattern ++ (txt "|" ++ (c.second.pattern ++ (txt "|" ++ c.third.pattern)))) ++ txt ")" ++ txt ","

def clausesPattern : List Clause → List Byte
  | [] => []
  | c :: φ => c.pattern ++ clausesPattern φ

/-- `(x?)(x?),` for every variable, then the clauses. -/
def satPattern : (n : Nat) → List Clause → List Byte
  | 0, φ => clausesPattern φ
  | n + 1, φ => txt "(x?)(x?)," ++ satPattern n φ

/-- `x,x,…x,` -/
def satText : Nat → List Byte
  | 0 => []
  | n + 1 => ch 'x' :: ch ',' :: satText n

end Mregex.Spec
