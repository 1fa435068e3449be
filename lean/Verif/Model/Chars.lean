/-!
# Characters

Model of `include/mregex/utility/char_traits.hpp`.

A C++ `char` is modelled by its object representation, an 8 bit vector.  The code converts to
`std::uint8_t` before every ordered comparison, so unsigned comparison is used throughout.
-/

namespace Mregex

/-- A `char` (object representation). -/
abbrev Byte := BitVec 8

/-- A character literal such as `'a'` in the C++ source. -/
def ch (c : Char) : Byte := BitVec.ofNat 8 c.toNat

/-- char_traits.hpp:19-23 `is_in_ascii_range<A, B>(input)`. -/
def isInAsciiRange (a b : Byte) (input : Byte) : Bool :=
  decide (a.toNat ≤ input.toNat) && decide (input.toNat ≤ b.toNat)

/-- char_traits.hpp:12 `lowercase_bit_mask`. -/
def lowercaseBitMask : Byte := 0x20#8

/-- char_traits.hpp:25-28 `flip_lowercase_bit`. -/
def flipLowercaseBit (input : Byte) : Byte := input ^^^ lowercaseBitMask

/-- char_traits.hpp:30-33 `set_lowercase_bit`. -/
def setLowercaseBit (input : Byte) : Byte := input ||| lowercaseBitMask

/-- char_traits.hpp:35-38 `is_digit`. -/
def isDigit (input : Byte) : Bool := isInAsciiRange (ch '0') (ch '9') input

/-- char_traits.hpp:40-43 `is_hexdigit`. -/
def isHexdigit (input : Byte) : Bool :=
  isDigit input || isInAsciiRange (ch 'a') (ch 'f') (setLowercaseBit input)

/-- char_traits.hpp:45-48 `is_lower`. -/
def isLower (input : Byte) : Bool := isInAsciiRange (ch 'a') (ch 'z') input

/-- char_traits.hpp:50-53 `is_upper`. -/
def isUpper (input : Byte) : Bool := isInAsciiRange (ch 'A') (ch 'Z') input

/-- char_traits.hpp:55-58 `is_alpha`. -/
def isAlpha (input : Byte) : Bool := isLower (setLowercaseBit input)

/-- char_traits.hpp:60-63 `is_word`. -/
def isWord (input : Byte) : Bool := isAlpha input || isDigit input || input == ch '_'

/-- char_traits.hpp:65-68 `to_lower`. -/
def toLower (input : Byte) : Byte := if isUpper input then flipLowercaseBit input else input

/-- char_traits.hpp:70-73 `to_upper`. -/
def toUpper (input : Byte) : Byte := if isLower input then flipLowercaseBit input else input

/-- char_traits.hpp:75-78 `invert_case`. -/
def invertCase (input : Byte) : Byte := if isAlpha input then flipLowercaseBit input else input

end Mregex
