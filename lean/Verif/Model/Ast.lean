import Verif.Model.Chars

/-!
# Abstract syntax tree, traits and tree transformations

Model of `ast/astfwd.hpp`, `ast/traits.hpp`, `ast/transform.hpp`, `ast/inversion.hpp`,
`ast/indexing.hpp`, `symbols/quantifiers.hpp`, `utility/enums.hpp` (all under `include/mregex`).

In C++ an AST node is a type; here it is a value of the inductive type `Ast`.
-/

namespace Mregex

/-- utility/enums.hpp `match_mode`. -/
inductive Mode
  | greedy | lazy | possessive
  deriving DecidableEq, Repr

/-- utility/enums.hpp `lookaround_direction`. -/
inductive LookDir
  | ahead | behind
  deriving DecidableEq, Repr

/-- symbols/quantifiers.hpp:18-21: `quantifier_value<N>` and `infinity`. -/
inductive Bound
  | fin (n : Nat)
  | inf
  deriving DecidableEq, Repr

/-- symbols/names.hpp: `unnamed` is `none`, `name<N>` is `some N`. -/
abbrev GroupName := Option (List Byte)

/-- ast/astfwd.hpp:10-144.  The variadic templates `sequence`, `alternation`, `set` carry a list of
children.  `basic_repetition<Mode, A, B, Inner>` is `rep`; `lookaround<Direction, Inner>` is `look`. -/
inductive Ast
  | empty
  | lit (c : Byte)
  | range (a b : Byte)
  | wildcard
  | set (l : List Ast)
  | neg (a : Ast)
  | seq (l : List Ast)
  | alt (l : List Ast)
  | cap (id : Nat) (name : GroupName) (a : Ast)
  | rep (m : Mode) (lo : Nat) (hi : Bound) (a : Ast)
  | look (d : LookDir) (a : Ast)
  | bol | boi | eol | eoi | wordB
  | backref (id : Nat)
  | namedBackref (name : List Byte)
  deriving Repr

namespace Ast

/-- ast/astfwd.hpp:114-116. -/
def lower : Ast := .range (ch 'a') (ch 'z')
def upper : Ast := .range (ch 'A') (ch 'Z')
def digit : Ast := .range (ch '0') (ch '9')
/-- ast/astfwd.hpp:118. -/
def nothing : Ast := .set []
/-- ast/astfwd.hpp:119. -/
def word : Ast := .set [lower, upper, digit, .lit (ch '_')]
/-- ast/astfwd.hpp:120. -/
def linebreak : Ast := .set [.lit 10#8, .lit 13#8]
/-- ast/astfwd.hpp:121. -/
def whitespace : Ast := .set [linebreak, .lit (ch ' '), .lit 9#8, .lit 11#8, .lit 12#8]

/-- ast/astfwd.hpp:51-91 abbreviations. -/
def star (a : Ast) : Ast := .rep .greedy 0 .inf a
def plus (a : Ast) : Ast := .rep .greedy 1 .inf a
def optional (a : Ast) : Ast := .rep .greedy 0 (.fin 1) a
def atomic (a : Ast) : Ast := .rep .possessive 1 (.fin 1) a

/-- ast/traits.hpp:124-129 `is_assertion`: the node is a zero-length matcher with a `predicate_type`.
Direct for anchors and lookarounds (nodes/terminals/anchors.hpp, nodes/lookaround.hpp); for `negated` of an
assertion (nodes/negated.hpp:23-25); inherited by `sequence<Inner>`, `alternation<Inner>` and the
non-possessive `basic_repetition<Mode,1,1,Inner>`, which derive from `Inner`
(sequence.hpp:62-63, alternation.hpp:28-29, fixed_repetition.hpp:151-152). -/
def isAssertion : Ast → Bool
  | .bol | .boi | .eol | .eoi | .wordB => true
  | .look _ _ => true
  | .neg a => isAssertion a
  | .seq [a] => isAssertion a
  | .alt [a] => isAssertion a
  | .rep m lo hi a => m != .possessive && lo == 1 && hi == .fin 1 && isAssertion a
  | _ => false

mutual
/-- ast/traits.hpp:25-29 `is_trivially_matchable`: the node type has a static `match_one`.
Literals, ranges, wildcard, sets (terminals/*.hpp, set.hpp) and generic `negated` (negated.hpp:11-21)
declare it; `sequence<Inner>` (sequence.hpp:62-63), `alternation` of trivially matchable nodes
(alternation.hpp:24-29) and `basic_repetition<Mode,1,1,Inner>` (fixed_repetition.hpp:137-152) inherit it. -/
def triv : Ast → Bool
  | .lit _ | .range _ _ | .wildcard | .set _ => true
  | .neg a => !isAssertion a
  | .seq l => trivSingle l
  | .alt l => trivAlt l
  | .rep _ lo hi a => lo == 1 && hi == .fin 1 && triv a
  | _ => false
/-- helper: `sequence<Inner>` with exactly one child. -/
def trivSingle : List Ast → Bool
  | [a] => triv a
  | _ => false
/-- helper: non-empty list of trivially matchable children. -/
def trivAlt : List Ast → Bool
  | [] => false
  | [a] => triv a
  | a :: l => triv a && trivAlt l
end

/-- ast/traits.hpp:31-32 `are_trivially_matchable`. -/
def areTriv (l : List Ast) : Bool := l.all triv

mutual
/-- ast/traits.hpp:104-117 `is_zero_length_matcher`.  `empty`, assertions, negated assertions and
backreferences derive from `zero_length_matcher` (empty.hpp:11, assertion.hpp:18, negated.hpp:25,
backref.hpp:39). -/
def zlm : Ast → Bool
  | .empty => true
  | .bol | .boi | .eol | .eoi | .wordB => true
  | .look _ _ => true
  | .neg a => isAssertion a
  | .backref _ => true
  | .namedBackref _ => true
  | .cap _ _ a => zlm a
  | .rep _ lo _ a => lo == 0 || zlm a
  | .seq l => zlmAll l
  | .alt l => zlmAny l
  | _ => false
/-- fold `(... && ...)` of traits.hpp:114. -/
def zlmAll : List Ast → Bool
  | [] => true
  | a :: l => zlm a && zlmAll l
/-- fold `(... || ...)` of traits.hpp:117. -/
def zlmAny : List Ast → Bool
  | [] => false
  | a :: l => zlm a || zlmAny l
end

mutual
/-- ast/inversion.hpp:22-56 `invert`, with the default of ast/transform.hpp:15-43.  Note that the body of a
lookaround is *not* inverted (inversion.hpp:34-56).  `negated<lookaround<...>>` (40-44, 52-56) gives
the same type as the default transformation of `negated` applied to the specialisation for `lookaround`. -/
def invert : Ast → Ast
  | .seq l => .seq (invertAll l).reverse
  | .look .ahead a => .look .behind a
  | .look .behind a => .look .ahead a
  | .set l => .set (invertAll l)
  | .neg a => .neg (invert a)
  | .alt l => .alt (invertAll l)
  | .cap id name a => .cap id name (invert a)
  | .rep m lo hi a => .rep m lo hi (invert a)
  | a => a
def invertAll : List Ast → List Ast
  | [] => []
  | a :: l => invert a :: invertAll l
end

mutual
/-- ast/traits.hpp:39-52 `capture_count`. -/
def captureCount : Ast → Nat
  | .seq l | .alt l | .set l => captureCountAll l
  | .neg a => captureCount a
  | .cap _ _ a => captureCount a + 1
  | .rep _ _ _ a => captureCount a
  | .look _ a => captureCount a
  | _ => 0
def captureCountAll : List Ast → Nat
  | [] => 0
  | a :: l => captureCount a + captureCountAll l
end

mutual
/-- ast/traits.hpp:60-91 `capture_name_spec`. -/
def nameSpec : Ast → List GroupName
  | .seq l | .alt l | .set l => nameSpecAll l
  | .neg a => nameSpec a
  | .cap _ name a => name :: nameSpec a
  | .rep _ _ _ a => nameSpec a
  | .look _ a => nameSpec a
  | _ => []
def nameSpecAll : List Ast → List GroupName
  | [] => []
  | a :: l => nameSpec a ++ nameSpecAll l
end

mutual
/-- ast/indexing.hpp:34-65 `capture_indexer<Offset>::index`.  A capture gets `Offset` and its body
`Offset + 1` (47-52); the children of a sequence get running offsets (54-61, 13-32); every other
node passes the *same* offset to all children (`transform`, line 38).  Subtrees without captures are left
alone (40-45), which the clauses below do as well. -/
def index (offset : Nat) : Ast → Ast
  | .cap _ name a => .cap offset name (index (offset + 1) a)
  | .seq l => .seq (indexSeq offset l)
  | .alt l => .alt (indexSame offset l)
  | .set l => .set (indexSame offset l)
  | .neg a => .neg (index offset a)
  | .rep m lo hi a => .rep m lo hi (index offset a)
  | .look d a => .look d (index offset a)
  | a => a
def indexSeq (offset : Nat) : List Ast → List Ast
  | [] => []
  | a :: l => index offset a :: indexSeq (offset + captureCount a) l
def indexSame (offset : Nat) : List Ast → List Ast
  | [] => []
  | a :: l => index offset a :: indexSame offset l
end

/-- ast/indexing.hpp:76-77 `index_captures_t`. -/
def indexCaptures (a : Ast) : Ast := index 1 a

end Ast
end Mregex
