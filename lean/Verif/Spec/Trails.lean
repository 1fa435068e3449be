import Verif.Spec.Paths

/-!
# Trails

The ways in which a regex without references can be matched, in order of preference, together with the groups that take part.  In contrast to
`Spec/Paths`, lookarounds and possessive constructs are looked into: a positive lookaround contributes the groups of the preferred match of its body, and so
does each round of a possessive iteration.
-/

namespace Mregex.Spec
open Mregex

/-- Every trail is continued from where it ends. -/
def thenT (T : List Place) (g : Nat → List Place) : List Place :=
  T.flatMap (fun x => (g x.1).map (fun y => (y.1, x.2 ++ y.2)))

section
variable (g : Nat → List Place)

/-- Exactly `k` iterations. -/
def timesT : Nat → Nat → List Place
  | 0, p => [(p, [])]
  | k + 1, p => thenT (g p) (timesT k)

/-- At most `k` iterations, more are preferred. -/
def greedyT : Nat → Nat → List Place
  | 0, p => [(p, [])]
  | k + 1, p => thenT (g p) (greedyT k) ++ [(p, [])]

/-- At most `k` iterations, fewer are preferred. -/
def lazyT : Nat → Nat → List Place
  | 0, p => [(p, [])]
  | k + 1, p => (p, []) :: thenT (g p) (lazyT k)

/-- Iterate the preferred match of each round, at most `k` times. -/
def possessiveT : Nat → Nat → List Place
  | 0, p => [(p, [])]
  | k + 1, p =>
    match g p with
    | [] => [(p, [])]
    | x :: _ => thenT [x] (possessiveT k)

/-- Any number of iterations that advance, more are preferred.  There are no more than the text has characters. -/
def greedyStarT : Nat → Nat → List Place
  | 0, _ => []
  | k + 1, p => thenT ((g p).filter (·.1 ≠ p)) (greedyStarT k) ++ [(p, [])]

/-- Any number of iterations that advance, fewer are preferred. -/
def lazyStarT : Nat → Nat → List Place
  | 0, _ => []
  | k + 1, p => (p, []) :: thenT ((g p).filter (·.1 ≠ p)) (lazyStarT k)

/-- Iterate the preferred match of each round until there is none or it does not advance. -/
def possessiveStarT : Nat → Nat → List Place
  | 0, _ => []
  | k + 1, p =>
    match g p with
    | [] => [(p, [])]
    | x :: _ => if x.1 = p then [x] else thenT [x] (possessiveStarT k)

end

/-- The iterations beyond the lower bound. -/
def extraT (n : Nat) (m : Mode) (ungreedy : Bool) (g : Nat → List Place) : Option Nat → Nat → List Place
  | some k =>
    match m with
    | .possessive => possessiveT g k
    | m => if (m == .greedy) != ungreedy then greedyT g k else lazyT g k
  | none =>
    match m with
    | .possessive => possessiveStarT g (n + 1)
    | m => if (m == .greedy) != ungreedy then greedyStarT g (n + 1) else lazyStarT g (n + 1)

/-- `g{lo,hi}`. -/
def quantifiedT (n : Nat) (m : Mode) (ungreedy : Bool) (lo : Nat) (hi : Bound) (g : Nat → List Place) (p : Nat) : List Place :=
  thenT (match m with | .possessive => (timesT g lo p).take 1 | _ => timesT g lo p)
    (extraT n m ungreedy g (match hi with | .fin h => some (h - lo) | .inf => none))

mutual
/-- The trails through `a` from a position; `fwd` and `inv` as for `ends`. -/
def trails (f : Flags) (s : List Byte) : Ast → Bool → Bool → Nat → List Place
  | .neg a, fwd, inv, p =>
      if assertion a then (if (trails f s a fwd inv p).isEmpty then [(p, [])] else [])
      else (oneChar s fwd (accepts f (.neg a)) p).map (·, [])
  | .seq l, fwd, inv, p => trailsAll f s l fwd inv p
  | .alt l, fwd, inv, p => trailsAny f s l fwd inv p
  | .cap id _ a, fwd, inv, p =>
      (trails f s a fwd inv p).map (fun y => (y.1, y.2 ++ [if fwd then (id, p, y.1) else (id, y.1, p)]))
  | .rep m lo hi a, fwd, inv, p => quantifiedT s.length m f.ungreedy lo hi (trails f s a fwd inv) p
  | .look d a, fwd, inv, p =>
      ((if (d == .ahead) == !inv then trails f s a fwd false p else trails f s a (!fwd) true p).take 1).map (fun y => (p, y.2))
  | a, fwd, inv, p => (ends f s a fwd inv p).map (·, [])
def trailsAll (f : Flags) (s : List Byte) : List Ast → Bool → Bool → Nat → List Place
  | [], _, _, p => [(p, [])]
  | a :: l, fwd, inv, p =>
      if inv then thenT (trailsAll f s l fwd inv p) (trails f s a fwd inv)
      else thenT (trails f s a fwd inv p) (trailsAll f s l fwd inv)
def trailsAny (f : Flags) (s : List Byte) : List Ast → Bool → Bool → Nat → List Place
  | [], _, _, _ => []
  | a :: l, fwd, inv, p => trails f s a fwd inv p ++ trailsAny f s l fwd inv p
end

/-- The first start position with a trail, at or after `i`, and the trail. -/
def searchTrail (f : Flags) (s : List Byte) (a : Ast) (i : Nat) : Option (Nat × Place) :=
  (List.range' i (s.length + 1 - i)).findSome? (fun j => (trails f s a true false j).head?.map (j, ·))

/-- The start and the trail of the match that a method finds. -/
def methodTrail (f : Flags) (s : List Byte) (a : Ast) : Method → Option (Nat × Place)
  | .match => ((trails f s a true false 0).find? (fun y => y.1 == s.length)).map (0, ·)
  | .matchPrefix => (trails f s a true false 0).head?.map (0, ·)
  | .search => searchTrail f s a 0

mutual
/-- The group `k` does not occur in lookarounds and possessive constructs. -/
def outside (k : Nat) : Ast → Bool
  | .seq l | .alt l => outsideAll k l
  | .cap _ _ a => outside k a
  | .rep .possessive _ _ a => !(groupIds a).contains k
  | .rep _ _ _ a => outside k a
  | a => !(groupIds a).contains k
def outsideAll (k : Nat) : List Ast → Bool
  | [] => true
  | a :: l => outside k a && outsideAll k l
end

end Mregex.Spec
