import Verif.Model.Parser
import Verif.Model.Match

/-!
# Static strings and reversed ranges

Model of `utility/static_string.hpp`, `utility/reversed_range_view.hpp` and of their uses in `parser/lexer.hpp`, `symbols/names.hpp` and `ast/nodes/terminals/backref.hpp`.
An array of characters is the list of its elements; that a length does not fit is `none` (the program does not compile), and so is reading outside an array.
-/

namespace Mregex

/-- static_string.hpp:17-20: the length `N` and the `std::array<char, N>`. -/
structure StaticString where
  n : Nat
  data : List Byte
  deriving DecidableEq, Repr

/-- A string literal `"..."` is an array with a null character behind the characters. -/
def literalArray (text : List Byte) : List Byte := text ++ [0]

/-- `std::copy(str, str + N, dest)`; the arguments are what is left to copy, the source and the destination. -/
def copyArray : Nat → List Byte → List Byte → Option (List Byte)
  | 0, _, dest => some dest
  | k + 1, x :: src, _ :: dest => (copyArray k src dest).map (x :: ·)
  | _ + 1, _, _ => none

namespace StaticString

/-- static_string.hpp:27-31: the constructor of `static_string<N>`, from an array of `N + 1` characters; `data{}` (20) are `N` null characters. -/
def construct (N : Nat) (str : List Byte) : Option StaticString :=
  if str.length = N + 1 then
    (if N = 0 then some (List.replicate N 0) else copyArray N str (List.replicate N 0)).map (⟨N, ·⟩)
  else none

/-- static_string.hpp:69-70: the deduction guide.  There are no arrays without elements. -/
def deduce (str : List Byte) : Option StaticString := if str.length = 0 then none else construct (str.length - 1) str

/-- static_string.hpp:77-81 `make_static_string`: `{Chars...}` initialises an array of `N + 1` characters, those without an initialiser become null characters. -/
def make (chars : List Byte) : Option StaticString :=
  construct chars.length (chars ++ List.replicate (chars.length + 1 - chars.length) 0)

/-- static_string.hpp:33-36 `length`. -/
def length (s : StaticString) : Nat := s.n

/-- static_string.hpp:63-66 `operator[]`. -/
def get (s : StaticString) (i : Nat) : Option Byte := s.data[i]?

/-- static_string.hpp:38-56: what a loop from `begin` to `end` reads. -/
def iterate (s : StaticString) : List Byte := s.data

/-- static_string.hpp:58-61: `string_view(cbegin(data), N)`; also what 84-88 `operator<<` prints and names.hpp:15 `name<Name>::value`. -/
def view (s : StaticString) : Option (List Byte) := if s.n ≤ s.data.length then some (s.data.take s.n) else none

/-- lexer.hpp:14-32 `token<I>`, `none` is `symbol::empty`.  The outer option: `Pattern[I]` reads outside the array. -/
def token (s : StaticString) (i : Nat) : Option (Option Byte) :=
  if i < s.length then (s.get i).map some else some none

end StaticString

/-- match_result.hpp:293-298 `get_group_by_name` and backref.hpp:26-35 on the types `name<Name>`: the index of the only group with this type of name.  Two types `name<A>` and `name<B>` are the same if `A` and `B` have the same length and the same elements. -/
def staticIndex (names : List (Option StaticString)) (name : StaticString) : Option Nat :=
  if names.count (some name) = 1 then some (names.idxOf (some name)) else none

/-- reversed_range_view.hpp:20-33: a loop over the view.  The iterators are the bases of reverse iterators; `*it` reads the character before the base. -/
structure ReversedRange where
  first : Nat
  last : Nat

/-- reversed_range_view.hpp:20-23: `_begin` is made from the end of the range, `_end` from its beginning. -/
def ReversedRange.of (b e : Nat) : ReversedRange := ⟨e, b⟩

/-- A loop from `begin()` to `end()` (backref.hpp:52): `for (auto target : view)`.  The first argument bounds the rounds; `none`: a read outside the text or no end. -/
def ReversedRange.loop (s : List Byte) : Nat → ReversedRange → Option (List Byte)
  | 0, v => if v.first = v.last then some [] else none
  | k + 1, v =>
    if v.first = v.last then some []
    else if v.first = 0 then none
    else match s[v.first - 1]? with
      | some x => (ReversedRange.loop s k ⟨v.first - 1, v.last⟩).map (x :: ·)
      | none => none

end Mregex
