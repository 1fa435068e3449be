import Verif.Model.Generator

/-!
# Overloads for ranges, and what outlives what

Model of the overloads regex.hpp:171-271, which take a range instead of two iterators, of `is_expiring_memory_owner`
(utility/type_traits.hpp:15-17), and of the memory that the results refer to.
-/

namespace Mregex

/-- The kinds of arguments.  `literal`: string literals and pointers, which are no `char_range` (concepts.hpp:11-15; the parameter of the
requires-expression decays to a pointer) and convert to `std::string_view`.  `view`: `std::string_view`.  `container trivial`: a range that
holds its characters, whose destructor is trivial (`std::array`) or not (`std::string`, `std::vector`, `std::list`).  Simplification: other
views and ranges of borrowed characters are not considered. -/
inductive ArgType
  | literal
  | view
  | container (trivial : Bool)
  deriving DecidableEq, Repr

/-- An argument; `temporary`: an rvalue whose life ends with the full expression of the call. -/
structure Arg where
  type : ArgType
  temporary : Bool
  deriving DecidableEq, Repr

/-- type_traits.hpp:15-17 for the type `Range &&` deduced from the argument: an lvalue gives an lvalue reference. -/
def Arg.isExpiringMemoryOwner (a : Arg) : Bool :=
  a.temporary && match a.type with
    | .container trivial => !trivial
    | _ => false

/-- The overloads, e.g. of `match`: `std::string_view` (regex.hpp:175-178), `Range const &` (180-184), `Range &&` (186-191). -/
inductive Overload
  | stringView
  | constRef
  | rvalueRef
  deriving DecidableEq, Repr

/-- Overload resolution for `match`, `match_prefix` and `search`.  Literals and pointers are no `char_range`; for a `std::string_view` both
conversions are the identity and the function that is no template wins; binding an rvalue to `Range &&` is better than to `Range const &`. -/
def Arg.overload (a : Arg) : Overload :=
  match a.type with
  | .literal | .view => .stringView
  | .container _ => if a.isExpiringMemoryOwner then .rvalueRef else .constRef

/-- Overload resolution for `tokenizer`, `searcher`, `tokenize` and `find_all` (regex.hpp:229-271), which have no overload for rvalues. -/
def Arg.lazyOverload (a : Arg) : Overload :=
  match a.type with
  | .literal | .view => .stringView
  | .container _ => .constRef

/-- What a call returns: a result with views into the input, or one that owns copies. -/
inductive Held
  | view (res : Result)
  | owned (res : OwnedResult)

/-- `match`, `match_prefix` or `search` of a range (regex.hpp:175-227). -/
def Regex.call (R : Regex) (M : Method) (cat : Cat) (a : Arg) (s : List Byte) : Option Held :=
  (R.invoke M cat s).map fun res =>
    match a.overload with
    | .rvalueRef => .owned (res.asMemoryOwner s)
    | _ => .view res

/-- The characters of the argument when the full expression of the call has ended; `none`: they do not exist any more.  Views and pointers
are taken to refer to characters that still exist. -/
def Arg.memory (a : Arg) (s : List Byte) : Option (List Byte) :=
  match a.type with
  | .literal | .view => some s
  | .container _ => if a.temporary then none else some s

/-- `matched()`. -/
def Held.matched : Held → Bool
  | .view res => res.matched
  | .owned res => res.matched

/-- Reading the text of group `k` (regex_capture.hpp:82-88, 160-168) when the memory of the input is `mem`.  `none`: undefined behaviour, or
there is no such group.  Reading a group without text touches no memory. -/
def Held.read (mem : Option (List Byte)) (k : Nat) : Held → Option (List Byte)
  | .view res =>
    match res.groups[k]? with
    | none => none
    | some c => if c.isEmpty then some [] else mem.map fun s => c.content s
  | .owned res => res.groups[k]?

/-- The characters that the iterators of a range refer to while a loop runs.  The overloads for `std::string_view` and `Range const &` (regex.hpp:229-271) keep
iterators only; an overload for rvalues would have to keep the argument. -/
def Arg.loopMemory (a : Arg) (s : List Byte) : Option (List Byte) :=
  match a.lazyOverload with
  | .rvalueRef => some s
  | _ => a.memory s

/-- The elements that a loop sees: the range is constructed, and its generator called once, in the full expression of the call
(input_range_adapter.hpp:24-28), everything else happens later. -/
def Regex.loop (R : Regex) (M : Method) (cat : Cat) (a : Arg) (s : List Byte) (rounds : Nat) : Option (List Result × Bool) := do
  let A ← RangeAdapter.make R M cat s
  match a.loopMemory s with
  | some s => A.visit R M cat s rounds
  | none => if A.active && decide (0 < rounds) && A.gen.active then none else A.visit R M cat s rounds

end Mregex
