import Verif.Model.Iteration

/-!
# Iteration, by counting

What programs with ranges and iterators see, if a range is nothing but a number: how often it has been advanced.
-/

namespace Mregex.Spec
open Mregex

/-- The variables: every range has a number, every iterator knows its range. -/
structure Counts where
  ranges : List Nat := []
  iters : List (Option Nat) := []
  seen : List Seen := []

/-- The number of the range of an iterator. -/
def Counts.place (c : Counts) (it : Nat) : Option (Nat × Nat) := do
  let r ← (c.iters[it]?).join
  let n ← c.ranges[r]?
  return (r, n)

/-- One step, where the elements are `elem 0`, `elem 1`, ….  `none`: names that are not declared, and iterators that have no range.  `*it++` gives the element that `it` was at
(as the requirements on input iterators have it).  `skip` is what a copy made with `auto other(range)` has skipped: 0 as one expects. -/
def Counts.step (elem : Nat → Result) (skip : Nat) (c : Counts) : IterStep → Option Counts
  | .range => some { c with ranges := c.ranges ++ [0] }
  | .copyRange r => (c.ranges[r]?).map fun n => { c with ranges := c.ranges ++ [n] }
  | .copyDirect r => (c.ranges[r]?).map fun n => { c with ranges := c.ranges ++ [n + skip] }
  | .begin r => (c.ranges[r]?).map fun _ => { c with iters := c.iters ++ [some r] }
  | .default => some { c with iters := c.iters ++ [none] }
  | .copy it => (c.iters[it]?).map fun t => { c with iters := c.iters ++ [t] }
  | .deref it => (c.place it).map fun x => { c with seen := c.seen ++ [.value (elem x.2)] }
  | .incr it => (c.place it).map fun x => { c with ranges := c.ranges.set x.1 (x.2 + 1) }
  | .postIncr it => (c.place it).map fun x => { c with ranges := c.ranges.set x.1 (x.2 + 1), seen := c.seen ++ [.value (elem x.2)] }
  | .test it => (c.place it).map fun x => { c with seen := c.seen ++ [.more (elem x.2).matched] }

def Counts.run (elem : Nat → Result) (skip : Nat) (c : Counts) : List IterStep → Option Counts
  | [] => some c
  | x :: l => (c.step elem skip x).bind fun c' => c'.run elem skip l

/-- The program does not use `it++`. -/
def prefixOnly : List IterStep → Bool
  | [] => true
  | .postIncr _ :: _ => false
  | _ :: l => prefixOnly l

/-- The program does not use `auto other(range)`. -/
def noDirect : List IterStep → Bool
  | [] => true
  | .copyDirect _ :: _ => false
  | _ :: l => noDirect l

/-- The step uses an iterator that has no range. -/
def UsesNull (c : Counts) : IterStep → Prop
  | .deref it | .incr it | .test it => c.iters[it]? = some none
  | _ => False

/-- Each step of the program makes sense until one uses an iterator that has no range. -/
def RunsIntoNull (elem : Nat → Result) (p : List IterStep) : Prop :=
  ∃ before x after c, p = before ++ x :: after ∧ prefixOnly before = true ∧ Counts.run elem 1 {} before = some c ∧ UsesNull c x

end Mregex.Spec
