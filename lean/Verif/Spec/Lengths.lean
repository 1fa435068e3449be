import Verif.Spec.Groups
import Verif.Spec.Proc

/-!
# Lengths

How long the texts can be that an expression takes, read off the expression.
-/

namespace Mregex.Spec
open Mregex

mutual
/-- No shorter text is taken. -/
def shortest : Ast → Nat
  | .lit _ | .range _ _ | .wildcard | .set _ => 1
  | .neg a => if assertion a then 0 else 1
  | .seq l => shortestAll l
  | .alt l => shortestAny l
  | .cap _ _ a => shortest a
  | .rep _ lo _ a => lo * shortest a
  | _ => 0
def shortestAll : List Ast → Nat
  | [] => 0
  | a :: l => shortest a + shortestAll l
def shortestAny : List Ast → Nat
  | [] => 0
  | [a] => shortest a
  | a :: l => min (shortest a) (shortestAny l)
end

/-- `j` rounds of at most `m` characters; `none`: arbitrarily many. -/
def limitRounds (j : Nat) (m : Option Nat) : Option Nat := if j = 0 then some 0 else m.map (j * ·)

/-- Any number of rounds of at most `m` characters. -/
def anyRounds (m : Option Nat) : Option Nat := if m = some 0 then some 0 else none

/-- The sum and the larger one of two limits. -/
def addLimit (m m' : Option Nat) : Option Nat := m.bind fun x => m'.map (x + ·)
def maxLimit (m m' : Option Nat) : Option Nat := m.bind fun x => m'.map (max x ·)

mutual
/-- No longer text is taken; `none`: there is no limit.  (`max lo hi` is `hi`, where the bounds are in order.) -/
def longest : Ast → Option Nat
  | .lit _ | .range _ _ | .wildcard | .set _ => some 1
  | .neg a => if assertion a then some 0 else some 1
  | .seq l => longestAll l
  | .alt l => longestAny l
  | .cap _ _ a => longest a
  | .rep _ lo (.fin hi) a => limitRounds (max lo hi) (longest a)
  | .rep _ _ .inf a => anyRounds (longest a)
  | .backref _ | .namedBackref _ => none
  | _ => some 0
def longestAll : List Ast → Option Nat
  | [] => some 0
  | a :: l => addLimit (longest a) (longestAll l)
def longestAny : List Ast → Option Nat
  | [] => some 0
  | a :: l => maxLimit (longest a) (longestAny l)
end

/-- A text of length `d` can be taken, as far as the lengths are concerned. -/
def Fits (a : Ast) (d : Nat) : Prop := shortest a ≤ d ∧ ∀ m, longest a = some m → d ≤ m

/-- A result for a text of length `n` whose match and groups have lengths that fit: the match the expression, each group one of the expressions written inside a
group with this number, unless it is empty. -/
def SizedResult (a : Ast) (n : Nat) (res : Result) : Prop :=
  (res.matched = true → ∃ b e, res.group 0 = some (some (b, e)) ∧ b ≤ e ∧ e ≤ n ∧ Fits a (e - b)) ∧
  ∀ k b e, k ≠ 0 → k ≤ a.captureCount → res.group k = some (some (b, e)) → b ≤ e ∧ (b = e ∨ ∃ X, GroupBody a k X ∧ Fits X (e - b))

end Mregex.Spec
