import Verif.Spec.Says
import Verif.Model.Methods
import Verif.Model.Build

/-!
# Whether an expression says anything at all

`possible` looks at the parts of an expression only, and `sample` writes down a text.
-/

namespace Mregex.Spec
open Mregex

/-- Some character that satisfies `P`, the one with the smallest code. -/
def someByte (P : Byte → Bool) : Option Byte := ((List.range 256).map (BitVec.ofNat 8)).find? P

/-- Is a number of rounds allowed by the upper bound? -/
def within (n : Nat) : Bound → Bool
  | .fin m => decide (n ≤ m)
  | .inf => true

mutual
/-- Every part that has to be there can be there; references always can. -/
def possible (f : Flags) : Ast → Bool
  | .empty => true
  | .seq l => possibleAll f l
  | .alt l => possibleAny f l
  | .cap _ _ a => possible f a
  | .rep _ lo hi a => within lo hi && (lo == 0 || possible f a)
  | .backref _ => true
  | a => (someByte (accepts f a)).isSome
def possibleAll (f : Flags) : List Ast → Bool
  | [] => true
  | a :: l => possible f a && possibleAll f l
def possibleAny (f : Flags) : List Ast → Bool
  | [] => false
  | a :: l => possible f a || possibleAny f l
end

/-- `n` times in a row. -/
def sampleTimes (g : Memory → Option (List Byte × Memory)) : Nat → Memory → Option (List Byte × Memory)
  | 0, e => some ([], e)
  | n + 1, e => do
    let (u, t) ← g e
    let (v, e') ← sampleTimes g n t
    return (u ++ v, e')

mutual
/-- A text with as few rounds as possible and the first alternative that is possible, and what the groups have said then. -/
def sample (f : Flags) : Ast → Memory → Option (List Byte × Memory)
  | .empty, e => some ([], e)
  | .seq l, e => sampleAll f l e
  | .alt l, e => sampleAny f l e
  | .cap k _ a, e => do
    let (w, t) ← sample f a e
    return (w, (k, w) :: t)
  | .rep _ lo hi a, e => if within lo hi then sampleTimes (sample f a) lo e else none
  | .backref k, e => some (recall k e, e)
  | a, e => (someByte (accepts f a)).map fun x => ([x], e)
def sampleAll (f : Flags) : List Ast → Memory → Option (List Byte × Memory)
  | [], e => some ([], e)
  | a :: l, e => do
    let (u, t) ← sample f a e
    let (v, e') ← sampleAll f l t
    return (u ++ v, e')
def sampleAny (f : Flags) : List Ast → Memory → Option (List Byte × Memory)
  | [], _ => none
  | a :: l, e => (sample f a e).or (sampleAny f l e)
end

/-! ### What an expression does not accept -/

/-- `(?!(?:P)\Z)[^]*` for the pattern `P`. -/
def refusalA (a : Ast) : Ast := .seq [.neg (.look .ahead (Ast.makeSequence .eoi a)), .rep .greedy 0 .inf (.neg (.set []))]

def refusal (R : Regex) : Regex := ⟨refusalA R.ast, R.flags⟩

end Mregex.Spec
