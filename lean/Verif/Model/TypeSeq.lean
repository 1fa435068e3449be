/-!
# Type sequences

Model of `utility/type_sequence.hpp`: a `type_sequence<Elems...>` is a list of its elements, which are values of an arbitrary type.
-/

namespace Mregex.TypeSeq
variable {α : Type}

/-- type_sequence.hpp:17-21 `is_empty`. -/
def isEmpty : List α → Bool
  | [] => true
  | _ :: _ => false

/-- type_sequence.hpp:23-41 `front_t`; `none` is `symbol::empty`. -/
def front : List α → Option α
  | a :: _ => some a
  | [] => none

/-- What is pushed: an ordinary type or a sequence (the two specialisations of type_sequence.hpp:46-56). -/
inductive Item (α : Type)
  | elem (a : α)
  | seq (l : List α)

/-- type_sequence.hpp:43-63 `push_t`. -/
def push (l : List α) : Item α → List α
  | .elem a => a :: l
  | .seq l' => l' ++ l

/-- type_sequence.hpp:65-85 `pop_t`. -/
def pop : List α → List α
  | _ :: l => l
  | [] => []

/-- type_sequence.hpp:87-122 `concat_t`, four sequences at a time. -/
def concat : List (List α) → List α
  | [] => []
  | [a] => a
  | [a, b] => a ++ b
  | [a, b, c] => a ++ (b ++ c)
  | a :: b :: c :: d :: l => concat ((a ++ (b ++ (c ++ d))) :: l)
termination_by l => l.length

/-- type_sequence.hpp:124-153 `reverse_type_pack_t`, four elements at a time; also 155-169 `reverse_t`. -/
def reverse : List α → List α
  | [a, b] => [b, a]
  | [a, b, c] => [c, b, a]
  | a :: b :: c :: d :: l => concat [reverse l, [d, c, b, a]]
  | l => l

end Mregex.TypeSeq
