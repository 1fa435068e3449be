import Verif.Model.Methods

/-!
# Looking at results

Model of `utility/tuple.hpp` and of the members of `match_result.hpp` and `regex_capture.hpp` that give access to groups and characters.
-/

namespace Mregex

/-- Values that a function called on a group can return, as far as `std::tuple{...}` makes a difference between them: pairs, tuples and everything else. -/
inductive Val (α : Type)
  | other (a : α)
  | pair (a b : Val α)
  | tuple (l : List (Val α))

/-- The elements of `std::tuple{args...}` (tuple.hpp:14).  Class template argument deduction: of a single argument that is a tuple a copy is made (copy
deduction candidate), a single pair is made a tuple of two elements (`tuple(pair<T1, T2>) -> tuple<T1, T2>`), in all other cases the arguments become the elements. -/
def makeTuple {α : Type} : List (Val α) → List (Val α)
  | [.pair a b] => [a, b]
  | [.tuple l] => l
  | l => l

/-- tuple.hpp:11-15, 32-40 `transform_tuple`: `func` on `std::get<Indices>(tuple)` for all indices.  `none`: an index that does not exist. -/
def transformTuple {α β : Type} (tuple : List β) (func : β → Val α) : Option (List (Val α)) :=
  ((List.range tuple.length).mapM (fun i => tuple[i]?.map func)).map makeTuple

/-- The fold over the comma operator in tuple.hpp:20, from the left; `func` may change a state. -/
def iterateIndices {β σ : Type} (tuple : List β) (func : β → σ → σ) : List Nat → σ → Option σ
  | [], st => some st
  | i :: is, st =>
    match tuple[i]? with
    | some x => iterateIndices tuple func is (func x st)
    | none => none

/-- tuple.hpp:17-21, 48-56 `iterate_tuple`. -/
def iterateTuple {β σ : Type} (tuple : List β) (func : β → σ → σ) (st : σ) : Option σ :=
  iterateIndices tuple func (List.range tuple.length) st

/-- match_result.hpp:111-115 `transform_groups`. -/
def Result.transformGroups {α : Type} (R : Result) (func : Cap → Val α) : Option (List (Val α)) := transformTuple R.groups func

/-- match_result.hpp:122-126, 177-193 `for_each_group`. -/
def Result.forEachGroup {σ : Type} (R : Result) (func : Cap → σ → σ) (st : σ) : Option σ := iterateTuple R.groups func st

/-- match_result.hpp:235-257 `get<ID>`, 325-335 `std::tuple_size` and `std::tuple_element`: structured bindings `auto [g0, ..., gn] = result` with as many names
as elements. -/
def Result.bindings (R : Result) (names : Nat) : Option (List Cap) :=
  if names = R.groups.length then (List.range names).mapM (fun i => R.groups[i]?) else none

/-- match_result.hpp:259-262 `operator==(bool)`. -/
def Result.eqBool (R : Result) (value : Bool) : Bool := R.matched == value

/-- match_result.hpp:269-273, regex_capture.hpp:107-111 `operator std::string_view`; for non-contiguous iterators it does not exist. -/
def Result.text (s : List Byte) (R : Result) : List Byte := (R.groups.getD 0 none).content s

/-- regex_capture.hpp:90-100 `operator[]`: `_begin[index]`, with no check.  `none`: undefined behaviour. -/
def Cap.at (s : List Byte) : Cap → Nat → Option Byte
  | none, _ => none
  | some (b, _), i => s[b + i]?

/-- regex_capture.hpp:244-249 `operator<<`: `std::copy(begin, end, out)`.  The first argument is the distance that is left; `none`: undefined behaviour. -/
def copyOut (s : List Byte) : Nat → Nat → Option (List Byte)
  | 0, _ => some []
  | n + 1, p =>
    match s[p]? with
    | some x => (copyOut s n (p + 1)).map (x :: ·)
    | none => none

/-- regex_capture.hpp:244-249; the end has to be reachable from the beginning. -/
def Cap.stream (s : List Byte) : Cap → Option (List Byte)
  | none => some []
  | some (b, e) => if b ≤ e then copyOut s (e - b) b else none

/-- match_result.hpp:319-323 `operator<<`. -/
def Result.stream (s : List Byte) (R : Result) : Option (List Byte) :=
  match R.groups[0]? with
  | some g => g.stream s
  | none => none

end Mregex
