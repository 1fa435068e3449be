import Verif.Model.Methods
import Verif.Spec.Order
import Verif.Spec.Groups

/-!
# Paths

The ways in which a regex can be matched, in order of preference, together with the groups that take part.  In contrast to the
matcher there is no shared store of captures: every path carries its own history, so that abandoned attempts cannot influence it.
-/

namespace Mregex.Spec
open Mregex

/-- A group has taken part: its number, begin and end. -/
abbrev Event := Nat × Nat × Nat

/-- A position and the groups that have taken part on the way to it, the oldest first. -/
abbrev Place := Nat × List Event

/-- The range of the last participation of the group `k`. -/
def held (k : Nat) : List Event → Option (Nat × Nat)
  | [] => none
  | (id, v) :: l => (held k l).or (if id = k then some v else none)

/-- A capture without text: never set or cleared. -/
def NoText : Cap → Prop
  | none => True
  | some (b, e) => b = e

/-- The text of a range; nothing if there is none. -/
def heldText (s : List Byte) : Option (Nat × Nat) → List Byte
  | none => []
  | some (b, e) => (s.drop b).take (e - b)

/-- The text `l` begins with `w`, up to the case of letters if `icase`. -/
def beginsWith (icase : Bool) : (w l : List Byte) → Bool
  | [], _ => true
  | _ :: _, [] => false
  | x :: w, y :: l => (x == y || (icase && asciiLower x == asciiLower y)) && beginsWith icase w l

/-- The same text, up to the case of letters if `icase`. -/
def SameText (icase : Bool) : (w v : List Byte) → Prop
  | [], [] => True
  | x :: w, y :: v => CharEq icase x y ∧ SameText icase w v
  | _, _ => False

section
variable (g : Place → List Place)

/-- Exactly `k` iterations. -/
def timesP : Nat → Place → List Place
  | 0, x => [x]
  | k + 1, x => (g x).flatMap (timesP k)

/-- At most `k` iterations, more are preferred. -/
def greedyP : Nat → Place → List Place
  | 0, x => [x]
  | k + 1, x => (g x).flatMap (greedyP k) ++ [x]

/-- At most `k` iterations, fewer are preferred. -/
def lazyP : Nat → Place → List Place
  | 0, x => [x]
  | k + 1, x => [x] ++ (g x).flatMap (lazyP k)

/-- Any number of iterations that advance, more are preferred.  There are no more than the text has characters. -/
def greedyStarP : Nat → Place → List Place
  | 0, _ => []
  | k + 1, x => ((g x).filter (·.1 ≠ x.1)).flatMap (greedyStarP k) ++ [x]

/-- Any number of iterations that advance, fewer are preferred. -/
def lazyStarP : Nat → Place → List Place
  | 0, _ => []
  | k + 1, x => [x] ++ ((g x).filter (·.1 ≠ x.1)).flatMap (lazyStarP k)

end

/-- The iterations beyond the lower bound. -/
def extraP (n : Nat) (more : Bool) (g : Place → List Place) : Option Nat → Place → List Place
  | some k => if more then greedyP g k else lazyP g k
  | none => if more then greedyStarP g (n + 1) else lazyStarP g (n + 1)

mutual
/-- The paths through `a` from a place.  Lookarounds and possessive constructs are not looked into: they offer the ends that `ends` describes and no groups. -/
def paths (f : Flags) (s : List Byte) : Ast → Place → List Place
  | .cap id _ a, x => (paths f s a x).map (fun y => (y.1, y.2 ++ [(id, x.1, y.1)]))
  | .seq l, x => pathsAll f s l x
  | .alt l, x => pathsAny f s l x
  | .rep .possessive lo hi a, x => (ends f s (.rep .possessive lo hi a) true false x.1).map (·, x.2)
  | .rep m lo hi a, x =>
      (timesP (paths f s a) lo x).flatMap
        (extraP s.length ((m == .greedy) != f.ungreedy) (paths f s a) (match hi with | .fin h => some (h - lo) | .inf => none))
  | .backref k, x =>
      if beginsWith f.icase (heldText s (held k x.2)) (s.drop x.1) then [(x.1 + (heldText s (held k x.2)).length, x.2)] else []
  | a, x => (ends f s a true false x.1).map (·, x.2)
def pathsAll (f : Flags) (s : List Byte) : List Ast → Place → List Place
  | [], x => [x]
  | a :: l, x => (paths f s a x).flatMap (pathsAll f s l)
def pathsAny (f : Flags) (s : List Byte) : List Ast → Place → List Place
  | [], _ => []
  | a :: l, x => paths f s a x ++ pathsAny f s l x
end

/-- The path of a match of the whole text. -/
def fullPath (f : Flags) (s : List Byte) (a : Ast) : Option Place := (paths f s a (0, [])).find? (fun y => y.1 == s.length)

/-- The path of a match of a prefix. -/
def prefixPath (f : Flags) (s : List Byte) (a : Ast) : Option Place := (paths f s a (0, [])).head?

/-- The first start position with a path, at or after `i`, and the path. -/
def searchPath (f : Flags) (s : List Byte) (a : Ast) (i : Nat) : Option (Nat × Place) :=
  (List.range' i (s.length + 1 - i)).findSome? (fun j => (paths f s a (j, [])).head?.map (j, ·))

/-- The start and the path of the match that a method finds. -/
def methodPath (f : Flags) (s : List Byte) (a : Ast) : Method → Option (Nat × Place)
  | .match => (fullPath f s a).map (0, ·)
  | .matchPrefix => (prefixPath f s a).map (0, ·)
  | .search => searchPath f s a 0

/-! ### Fragments -/

/-- No groups and no references. -/
def closed (a : Ast) : Bool := (groupIds a).isEmpty && noBackref a

mutual
/-- Lookarounds and possessive constructs contain neither groups nor references. -/
def commitsClosed : Ast → Bool
  | .seq l | .alt l => commitsClosedAll l
  | .cap _ _ a => commitsClosed a
  | .rep .possessive _ _ a => closed a
  | .rep _ _ _ a => commitsClosed a
  | .backref _ => true
  | a => closed a
def commitsClosedAll : List Ast → Bool
  | [] => true
  | a :: l => commitsClosed a && commitsClosedAll l
end

mutual
/-- On every path the group `k` is not tried again after it has taken part: it is not in an iterated part, not in itself and not in two parts of a concatenation. -/
def visitedOnce (k : Nat) : Ast → Bool
  | .seq l => visitedOnceAll k l
  | .alt l | .set l => visitedOnceAny k l
  | .cap id _ a => (id != k || !(groupIds a).contains k) && visitedOnce k a
  | .rep _ _ hi a => (!(groupIds a).contains k || hi == .fin 0 || hi == .fin 1) && visitedOnce k a
  | .neg a | .look _ a => visitedOnce k a
  | _ => true
def visitedOnceAll (k : Nat) : List Ast → Bool
  | [] => true
  | a :: l => visitedOnce k a && (!(groupIds a).contains k || !(groupIdsAll l).contains k) && visitedOnceAll k l
def visitedOnceAny (k : Nat) : List Ast → Bool
  | [] => true
  | a :: l => visitedOnce k a && visitedOnceAny k l
end

mutual
/-- All references are by number, from outside of the group, to groups that satisfy `P`.  `around`: the groups around. -/
def refsTo (P : Nat → Bool) (around : List Nat) : Ast → Bool
  | .backref k => P k && !around.contains k
  | .namedBackref _ => false
  | .seq l | .alt l | .set l => refsToAll P around l
  | .cap id _ a => refsTo P (id :: around) a
  | .neg a | .rep _ _ _ a | .look _ a => refsTo P around a
  | _ => true
def refsToAll (P : Nat → Bool) (around : List Nat) : List Ast → Bool
  | [] => true
  | a :: l => refsTo P around a && refsToAll P around l
end

/-- The regexes for which `paths` describes what the matcher does. -/
def traceable (a : Ast) : Bool := commitsClosed a && refsTo (fun k => visitedOnce k a) [] a

/-- The groups of a result, from number 1 on, as demanded by a path: a group that takes part holds the range of its last participation, the others hold no text.
Groups that may be tried again after they took part may also have lost their text. -/
def Records (a : Ast) (ev : List Event) (groups : List Cap) : Prop :=
  ∀ k g, k ≠ 0 → groups[k]? = some g →
    match held k ev with
    | none => NoText g
    | some v => g = some v ∨ (visitedOnce k a = false ∧ NoText g)

/-- No group from number 1 on holds text. -/
def NoGroups (groups : List Cap) : Prop := ∀ k g, k ≠ 0 → groups[k]? = some g → NoText g

end Mregex.Spec
