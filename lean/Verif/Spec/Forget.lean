import Verif.Spec.Groups

/-!
# Iterations that forget

Regexes in which the text of a group never survives: the group is in the body of an unbounded iteration that prefers more rounds.
-/

namespace Mregex.Spec
open Mregex

mutual
/-- Whenever `a` fails, the group `k` has been tried: it is the first thing that is tried, and in every concluding branch. -/
def tries (k : Nat) : Ast → Bool
  | .cap id _ a => id == k || tries k a
  | .seq l => triesFirst k l
  | .alt l => triesLast k l
  | .rep m lo _ a => m != .possessive && decide (1 ≤ lo) && tries k a
  | _ => false
def triesFirst (k : Nat) : List Ast → Bool
  | [] => false
  | a :: _ => tries k a
def triesLast (k : Nat) : List Ast → Bool
  | [] => false
  | [a] => tries k a
  | _ :: b :: l => triesLast k (b :: l)
end

mutual
/-- After `a` has matched, the group `k` has last been tried in vain: an unbounded iteration over a body that tries it has come to an end. -/
def forgets (ungreedy : Bool) (k : Nat) : Ast → Bool
  | .rep m _ .inf a => tries k a && (if m = .possessive then !Ast.zlm a else (m == .greedy) != ungreedy)
  | .seq l => forgetsSome ungreedy k l
  | .alt l => !l.isEmpty && forgetsEach ungreedy k l
  | .cap id _ a => id != k && forgets ungreedy k a
  | .look .ahead a => forgets ungreedy k a
  | _ => false
/-- One of the parts does, and the parts after it do not contain the group. -/
def forgetsSome (ungreedy : Bool) (k : Nat) : List Ast → Bool
  | [] => false
  | a :: l => forgetsSome ungreedy k l || (forgets ungreedy k a && !(groupIdsAll l).contains k)
def forgetsEach (ungreedy : Bool) (k : Nat) : List Ast → Bool
  | [] => true
  | a :: l => forgets ungreedy k a && forgetsEach ungreedy k l
end

end Mregex.Spec
