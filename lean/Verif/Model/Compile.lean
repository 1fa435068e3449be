import Verif.Model.Parser

/-!
# Instantiations

What the compiler does to parse a pattern: how many `parser<Pattern>::parse<I, Nodes, Symbols>` (parser/parser.hpp:55-71) are instantiated, and how many of them one inside the other.
-/

namespace Mregex
open Ast

/-- The number of `parse<I, ...>` that one `<<` instantiates (parser/state.hpp:59-63): each but the last needs the `type` of the next (parser/parser.hpp:58-59, 69-70, 73-85), so they are all
active at the same time.  (Between two of them there is a `transition`, unless there is a semantic action; these are not counted.)  The clauses are those of `parseT`. -/
def parseCount (pat : List Byte) : Nat → Nat → List Ast → List Sym → Nat
  | 0, _, _, _ => 0
  | k + 1, i, nodes, .act a :: symbols =>
    match build a (lastToken pat i) nodes with
    | some nodes' => parseCount pat k i nodes' symbols + 1
    | none => 1
  | k + 1, i, nodes, symbols =>
    match rule symbols.head? (token pat i) with
    | .push l => parseCount pat k i nodes (l ++ symbols.tail) + 1
    | .ignore => parseCount pat k i nodes symbols.tail + 1
    | _ => 1

/-- One `<<`.  For a `parser_result` nothing is instantiated (parser/state.hpp:65-69). -/
def PState.instantiations (pat : List Byte) : PState → Nat
  | .state i nodes symbols => parseCount pat (parseFuel symbols) i nodes symbols
  | _ => 0

/-- Every `<<` of the fold (parser/state.hpp:71-75). -/
def roundsFrom (pat : List Byte) : Nat → PState → List Nat
  | 0, _ => []
  | n + 1, s => s.instantiations pat :: roundsFrom pat n (advanceState pat s)

/-- Every `<<` for a pattern (parser/parser.hpp:115-116, parser/state.hpp:85-86). -/
def parseRounds (pat : List Byte) : List Nat := roundsFrom pat (pat.length + 1) (.state 0 [] [.begin])

end Mregex
