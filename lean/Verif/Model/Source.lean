import Verif.Model.Lifetime

/-!
# Which text a call looks at

Model of how the arguments of the overloads regex.hpp:171-271 become texts: arrays and pointers through the constructor of
`std::string_view`, everything else through its iterators, whose characters are passed to parameters of type `char`.
-/

namespace Mregex

/-- A character of a range: any type that converts to `char32_t` (utility/concepts.hpp:11-15). -/
abbrev CodeUnit := BitVec 32

/-- What can be passed.  `chars mem`: an array of `char` (as a string literal, which has a zero at the end) or a pointer to its first
element; it is no `char_range`, see `ArgType.literal`.  `range char contiguous units`: a range of characters; `char`: they have the type
`char`; `contiguous`: its iterators are contiguous.  Simplification: code units of signed types are given by their lower 32 bits. -/
inductive Source
  | chars (mem : List Byte)
  | range (char contiguous : Bool) (units : List CodeUnit)
  deriving DecidableEq, Repr

/-- Whether the call compiles: the result is constrained by `capture_storage` (match_result.hpp:19, 40; regex_capture_storage.hpp:27-32),
this by `captured_content` (regex_capture.hpp:14-21), and this instantiates `content()` (82-88), which makes a `std::string_view` of
contiguous iterators.  That is possible for `char` only.  The `std::string` made of other iterators converts each character. -/
def Source.compiles : Source → Bool
  | .chars _ => true
  | .range char contiguous _ => char || !contiguous

/-- The conversion of a character to the parameter `char input` of `match_one` (literal.hpp:12, range.hpp:42, set.hpp:14, wildcard.hpp:10,
negated.hpp:17), of `equals` (backref.hpp:70) and to the elements of a `std::string` (regex_capture.hpp:87): modulo 2^8. -/
def narrow (u : CodeUnit) : Byte := u.setWidth 8

/-- `std::string_view(char const *)` by `std::char_traits<char>::length`: up to the first zero.  `none`: undefined behaviour, a read beyond
the array. -/
def cString : List Byte → Option (List Byte)
  | [] => none
  | x :: mem => if x == 0 then some [] else (cString mem).map (x :: ·)

/-- The characters that the nodes see.  Every character read from the input goes to a parameter of type `char` (see `narrow`), so the input
can be narrowed beforehand. -/
def Source.text : Source → Option (List Byte)
  | .chars mem => cString mem
  | .range _ _ units => some (units.map narrow)

/-- `match`, `match_prefix` or `search` (regex.hpp:175-227).  `none`: does not compile, or undefined behaviour. -/
def Regex.invokeOn (R : Regex) (M : Method) (cat : Cat) (src : Source) : Option Result :=
  if src.compiles then src.text.bind (R.invoke M cat) else none

/-- `k` calls of what `tokenizer` or `searcher` return (regex.hpp:229-249); the type of the results is the same as for the methods, see `Source.compiles`. -/
def Regex.callsOn (R : Regex) (M : Method) (cat : Cat) (src : Source) (k : Nat) : Option (List Result × Gen) :=
  if src.compiles then src.text.bind (fun s => genCalls R M cat s k {}) else none

/-- A loop over what `tokenize` or `find_all` return (regex.hpp:251-271). -/
def Regex.elementsOn (R : Regex) (M : Method) (cat : Cat) (src : Source) (rounds : Nat) : Option (List Result × Bool) :=
  if src.compiles then src.text.bind (fun s => rangeElements R M cat s rounds) else none

end Mregex
