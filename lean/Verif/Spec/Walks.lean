import Verif.Spec.Trails
import Verif.Spec.Proc

/-!
# Walks

The ways in which a regex can be matched, in order of preference, together with the groups that take part.  In contrast to `Spec/Paths` lookarounds and possessive
constructs are looked into, in contrast to `Spec/Trails` there are references, also in lookarounds and in possessive constructs.
-/

namespace Mregex.Spec
open Mregex

section
variable (g : Place → List Place)

/-- Iterate the preferred match of each round, at most `k` times. -/
def possessiveP : Nat → Place → List Place
  | 0, x => [x]
  | k + 1, x =>
    match g x with
    | [] => [x]
    | y :: _ => possessiveP k y

/-- Iterate the preferred match of each round until there is none or it does not advance. -/
def possessiveStarP : Nat → Place → List Place
  | 0, _ => []
  | k + 1, x =>
    match g x with
    | [] => [x]
    | y :: _ => if y.1 = x.1 then [y] else possessiveStarP k y

end

mutual
/-- The walks through `a` from a place, inside `r` lookbehinds, for odd `r` reading backwards; `inv` as for `ends`.  A positive lookaround contributes the groups of the
preferred match of its body, and so does each round of a possessive iteration.  A reference reads the characters of the group in the reading direction.  (In a lookbehind that
is nested in another one the library reads forwards, but still takes the characters in reverse order, see `reference`.) -/
def walks (f : Flags) (s : List Byte) : Ast → Nat → Bool → Place → List Place
  | .cap id _ a, r, inv, x =>
      (walks f s a r inv x).map (fun y => (y.1, y.2 ++ [(id, if r % 2 = 0 then (x.1, y.1) else (y.1, x.1))]))
  | .seq l, r, inv, x => walksAll f s l r inv x
  | .alt l, r, inv, x => walksAny f s l r inv x
  | .rep .possessive lo hi a, r, inv, x =>
      ((timesP (walks f s a r inv) lo x).take 1).flatMap
        (match hi with
          | .fin h => possessiveP (walks f s a r inv) (h - lo)
          | .inf => possessiveStarP (walks f s a r inv) (s.length + 1))
  | .rep m lo hi a, r, inv, x =>
      (timesP (walks f s a r inv) lo x).flatMap
        (extraP s.length ((m == .greedy) != f.ungreedy) (walks f s a r inv) (match hi with | .fin h => some (h - lo) | .inf => none))
  | .backref k, r, _, x =>
      (copies f.icase s (r % 2 == 0) (if r = 0 then heldText s (held k x.2) else (heldText s (held k x.2)).reverse) x.1).map (·, x.2)
  | .look d a, r, inv, x =>
      ((if (d == .ahead) == !inv then walks f s a r false x else walks f s a (r + 1) true x).take 1).map (fun y => (x.1, y.2))
  | .neg a, r, inv, x =>
      if assertion a then (if (walks f s a r inv x).isEmpty then [x] else [])
      else (ends f s (.neg a) (r % 2 == 0) inv x.1).map (·, x.2)
  | a, r, inv, x => (ends f s a (r % 2 == 0) inv x.1).map (·, x.2)
def walksAll (f : Flags) (s : List Byte) : List Ast → Nat → Bool → Place → List Place
  | [], _, _, x => [x]
  | a :: l, r, inv, x =>
      if inv then (walksAll f s l r inv x).flatMap (walks f s a r inv)
      else (walks f s a r inv x).flatMap (walksAll f s l r inv)
def walksAny (f : Flags) (s : List Byte) : List Ast → Nat → Bool → Place → List Place
  | [], _, _, _ => []
  | a :: l, r, inv, x => walks f s a r inv x ++ walksAny f s l r inv x
end

/-- The start and the walk of the match that a method finds. -/
def methodWalk (f : Flags) (s : List Byte) (a : Ast) : Method → Option (Nat × Place)
  | .match => ((walks f s a 0 false (0, [])).find? (fun y => y.1 == s.length)).map (0, ·)
  | .matchPrefix => (walks f s a 0 false (0, [])).head?.map (0, ·)
  | .search => (List.range' 0 (s.length + 1)).findSome? (fun j => (walks f s a 0 false (j, [])).head?.map (j, ·))

mutual
/-- Groups that take part whenever `a` is matched. -/
def surely : Ast → List Nat
  | .cap id _ a => id :: surely a
  | .seq l => surelyAll l
  | .alt l => surelyAny l
  | .rep _ lo _ a => if lo = 0 then [] else surely a
  | .look _ a => surely a
  | _ => []
def surelyAll : List Ast → List Nat
  | [] => []
  | a :: l => surely a ++ surelyAll l
def surelyAny : List Ast → List Nat
  | [] => []
  | [a] => surely a
  | a :: l => (surely a).filter (surelyAny l).contains
end

mutual
/-- References are by number, from outside of the group, to groups that satisfy `P`, or that satisfy `Q` and surely have taken part before.  `around`: the groups
around, `before`: groups that surely have taken part.  `inv`: sequences are matched from the last part to the first. -/
def refsAfter (P Q : Nat → Bool) (around before : List Nat) (inv : Bool) : Ast → Bool
  | .backref k => !around.contains k && (P k || (Q k && before.contains k))
  | .namedBackref _ => false
  | .seq l => refsAfterAll P Q around before inv l
  | .alt l | .set l => refsAfterAny P Q around before inv l
  | .cap id _ a => refsAfter P Q (id :: around) before inv a
  | .neg a | .rep _ _ _ a => refsAfter P Q around before inv a
  | .look d a => refsAfter P Q around before ((d == .ahead) == inv) a
  | _ => true
def refsAfterAll (P Q : Nat → Bool) (around before : List Nat) (inv : Bool) : List Ast → Bool
  | [] => true
  | a :: l =>
      refsAfter P Q around (if inv then surelyAll l ++ before else before) inv a &&
        refsAfterAll P Q around (if inv then before else surely a ++ before) inv l
def refsAfterAny (P Q : Nat → Bool) (around before : List Nat) (inv : Bool) : List Ast → Bool
  | [] => true
  | a :: l => refsAfter P Q around before inv a && refsAfterAny P Q around before inv l
end

/-- References are by number, from outside of the group, to groups that are not tried again after they took part.  Groups in lookarounds and
possessive constructs surely have taken part when they are referred to. -/
def followable (a : Ast) : Bool :=
  refsAfter (fun k => visitedOnce k a && outside k a) (fun k => visitedOnce k a) [] [] false a

end Mregex.Spec
