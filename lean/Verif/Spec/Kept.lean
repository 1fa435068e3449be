import Verif.Spec.Paths

/-!
# Iterations that keep

Groups that are tried repeatedly, but never in vain after their last participation: a fixed number of rounds, or lazy iterations whose bodies
are left on one way only once the group has matched.
-/

namespace Mregex.Spec
open Mregex

/-- There is at most one way through: one character or an assertion. -/
def oneWay : Ast → Bool
  | .empty | .lit _ | .range _ _ | .wildcard | .set _ | .neg _ | .look _ _ | .bol | .boi | .eol | .eoi | .wordB => true
  | _ => false

/-- Fewer iterations are preferred. -/
def prefersFewer (ungreedy : Bool) (m : Mode) : Bool := m != .possessive && ((m == .greedy) == ungreedy)

mutual
/-- The group `k` takes part in every match of `a`, and after it has taken part for the last time there is only one way to go on inside of `a`. -/
def sets (u : Bool) (k : Nat) : Ast → Bool
  | .cap id _ a => id == k || sets u k a
  | .seq l => setsLast u k l
  | .alt l => !l.isEmpty && setsEach u k l
  | .rep m lo hi a => m != .possessive && decide (1 ≤ lo) && sets u k a && (hi == .fin lo || prefersFewer u m)
  | _ => false
def setsLast (u : Bool) (k : Nat) : List Ast → Bool
  | [] => false
  | a :: l => (sets u k a && l.all oneWay) || setsLast u k l
def setsEach (u : Bool) (k : Nat) : List Ast → Bool
  | [] => true
  | a :: l => sets u k a && setsEach u k l
end

mutual
/-- The group `k` takes part in every match of `a`, and is not tried again within `a`. -/
def ensures (u : Bool) (k : Nat) : Ast → Bool
  | .cap id _ a => id == k || ensures u k a
  | .seq l => setsLast u k l || ensuresLast u k l
  | .alt l => !l.isEmpty && ensuresEach u k l
  | .rep m lo hi a => m != .possessive && decide (1 ≤ lo) && ((hi == .fin lo && ensures u k a) || (prefersFewer u m && sets u k a))
  | _ => false
def ensuresLast (u : Bool) (k : Nat) : List Ast → Bool
  | [] => false
  | a :: l => (ensures u k a && !(groupIdsAll l).contains k) || ensuresLast u k l
def ensuresEach (u : Bool) (k : Nat) : List Ast → Bool
  | [] => true
  | a :: l => ensures u k a && ensuresEach u k l
end

mutual
/-- If the group `k` has not taken part before `a`, then after `a` it has not lost the text of its last participation. -/
def keeps (u : Bool) (k : Nat) : Ast → Bool
  | .cap id _ a => id == k || keeps u k a
  | .seq l => keepsAll u k l
  | .alt l => keepsEach u k l
  | .rep m lo hi a => !(groupIds a).contains k ||
      (m != .possessive && (((hi == .fin 0 || hi == .fin 1) && keeps u k a) || (hi == .fin lo && ensures u k a) || (prefersFewer u m && sets u k a)))
  | a => !(groupIds a).contains k
def keepsAll (u : Bool) (k : Nat) : List Ast → Bool
  | [] => true
  | a :: l => (keeps u k a && !(groupIdsAll l).contains k) || (!(groupIds a).contains k && keepsAll u k l) || ensuresLast u k l || setsLast u k l
def keepsEach (u : Bool) (k : Nat) : List Ast → Bool
  | [] => true
  | a :: l => keeps u k a && keepsEach u k l
end

end Mregex.Spec
