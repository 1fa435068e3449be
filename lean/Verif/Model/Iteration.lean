import Verif.Model.Generator

/-!
# Programs that iterate

Model of `iterator` in `utility/input_range_adapter.hpp`: what a program can do with the ranges of a regex and a text and with iterators into them.
-/

namespace Mregex

/-- The steps of a program.  Ranges and iterators are variables, numbered in the order of their declaration. -/
inductive IterStep
  /-- A new range: regex.hpp:151-155, 165-169. -/
  | range
  /-- `auto other = range` (implicit copy constructor; the members are those of match_result_generator.hpp:50-54 and input_range_adapter.hpp:141). -/
  | copyRange (r : Nat)
  /-- `auto other(range)` or `auto other{range}` for a range that is not `const`: input_range_adapter.hpp:24-28, since a forwarding reference fits better than the reference to
  `const` of the copy constructor.  (`auto other = range` does not consider it, because it is explicit.) -/
  | copyDirect (r : Nat)
  /-- `range.begin()`: input_range_adapter.hpp:94-97, 46-48. -/
  | begin (r : Nat)
  /-- A default constructed iterator: input_range_adapter.hpp:44, 84. -/
  | default
  /-- A copy of an iterator (implicit copy constructor). -/
  | copy (it : Nat)
  /-- Looking at `*it` or `it->`: input_range_adapter.hpp:50-58. -/
  | deref (it : Nat)
  /-- `++it`: input_range_adapter.hpp:60-64. -/
  | incr (it : Nat)
  /-- Looking at `*it++`: input_range_adapter.hpp:66-71. -/
  | postIncr (it : Nat)
  /-- `it == range.end()`, or `it` as a condition: input_range_adapter.hpp:73-81, 105-108. -/
  | test (it : Nat)
  deriving DecidableEq

/-- What a program gets to see. -/
inductive Seen
  | value (res : Result)
  /-- There is an element. -/
  | more (b : Bool)
  deriving DecidableEq

/-- The variables, and what has been seen.  An iterator is a pointer to its range, input_range_adapter.hpp:84 `_target`; `none` is the null pointer. -/
structure IterState where
  ranges : List RangeAdapter := []
  iters : List (Option Nat) := []
  seen : List Seen := []

/-- Outcomes: it does not compile, undefined behaviour (of a null pointer, or in the matcher), or a state. -/
inductive IterOut
  | illFormed
  | ub
  | ok (st : IterState)

section
variable (R : Regex) (M : Method) (cat : Cat) (s : List Byte)

/-- Something done with the range that `it` points to. -/
def IterState.at (st : IterState) (it : Nat) (f : Nat → RangeAdapter → IterOut) : IterOut :=
  match st.iters[it]? with
  | none => .illFormed
  | some none => .ub
  | some (some r) =>
    match st.ranges[r]? with
    | none => .ub
    | some A => f r A

/-- One step.  A name that is not declared does not compile.  input_range_adapter.hpp:66-71 does not compile either when it is used: `iterator old_iter{_target}` asks for
an iterator made of a pointer, and there is only a constructor for references to ranges (46-48), to which a pointer does not convert.  (It is a member of a template; as long as it is not
used, its body is not compiled.)  `copyDirect` copies the generator of the range, and the constructor calls the copy. -/
def IterState.step (st : IterState) : IterStep → IterOut
  | .range =>
    match RangeAdapter.make R M cat s with
    | some A => .ok { st with ranges := st.ranges ++ [A] }
    | none => .ub
  | .copyRange r =>
    match st.ranges[r]? with
    | some A => .ok { st with ranges := st.ranges ++ [A] }
    | none => .illFormed
  | .copyDirect r =>
    match st.ranges[r]? with
    | some A =>
      match genNext R M cat s A.gen with
      | some (res, g) => .ok { st with ranges := st.ranges ++ [⟨g, res⟩] }
      | none => .ub
    | none => .illFormed
  | .begin r =>
    match st.ranges[r]? with
    | some _ => .ok { st with iters := st.iters ++ [some r] }
    | none => .illFormed
  | .default => .ok { st with iters := st.iters ++ [none] }
  | .copy it =>
    match st.iters[it]? with
    | some t => .ok { st with iters := st.iters ++ [t] }
    | none => .illFormed
  | .deref it => st.at it fun _ A => .ok { st with seen := st.seen ++ [.value A.currentResult] }
  | .incr it => st.at it fun r A =>
    match A.computeNext R M cat s with
    | some A' => .ok { st with ranges := st.ranges.set r A' }
    | none => .ub
  | .postIncr _ => .illFormed
  | .test it => st.at it fun _ A => .ok { st with seen := st.seen ++ [.more A.active] }

/-- A program. -/
def IterState.run (st : IterState) : List IterStep → IterOut
  | [] => .ok st
  | x :: l =>
    match st.step R M cat s x with
    | .ok st' => st'.run l
    | o => o

end

end Mregex
