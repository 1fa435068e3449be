import Verif.Model.Grammar

/-!
# Parser

Model of `parser/lexer.hpp`, `parser/parser.hpp`, `parser/state.hpp`.
-/

namespace Mregex
open Ast

/-- parser/lexer.hpp:14-32 `token<I>`; `none` is `symbol::empty`. -/
def token (pat : List Byte) (i : Nat) : Option Byte := pat[i]?

/-- parser/parser.hpp:69 `token_t<I - 1>`; for `I = 0` the index wraps around and is beyond the end. -/
def lastToken (pat : List Byte) (i : Nat) : Option Byte := if i = 0 then none else pat[i - 1]?

/-- parser/state.hpp:13-20. -/
inductive Verdict
  | success
  | syntaxError (i : Nat)
  deriving DecidableEq, Repr

/-- parser/state.hpp:29-53: `parser_state<Parser, I, Nodes, Symbols>`, `parser_result<AST, Verdict>`; `illFormed`: the program does not compile; `stuck`: a template recursion that does not end. -/
inductive PState
  | state (i : Nat) (nodes : List Ast) (symbols : List Sym)
  | result (ast : Ast) (verdict : Verdict)
  | illFormed
  | stuck
  deriving Repr

/-- parser/parser.hpp:109-113 and parser/state.hpp:36-41: the AST of an accepted pattern. -/
def acceptedAst : List Ast → Ast
  | [] => .empty
  | first :: _ => indexCaptures first

/-- parser/parser.hpp:55-113 `parse<I, Nodes, Symbols>` and `transition<I, NewSymbols, Nodes, Symbols>`: up to the next `advance`, `reject` or `accept`.  The first
argument bounds the template recursion. -/
def parseT (pat : List Byte) : Nat → Nat → List Ast → List Sym → PState
  | 0, _, _, _ => .stuck
  | k + 1, i, nodes, .act a :: symbols =>
    match build a (lastToken pat i) nodes with
    | some nodes' => parseT pat k i nodes' symbols
    | none => .illFormed
  | k + 1, i, nodes, symbols =>
    match rule symbols.head? (token pat i) with
    | .push l => parseT pat k i nodes (l ++ symbols.tail)
    | .ignore => parseT pat k i nodes symbols.tail
    | .advance l => .state (i + 1) nodes (l ++ symbols.tail)
    | .reject => .result nothing (.syntaxError i)
    | .accept => .result (acceptedAst nodes) .success

/-- How often a symbol can be rewritten without advancing (only used to bound `parseT`; `Verif.Proof.Parser` proves that it is enough). -/
def Sym.weight : Sym → Nat
  | .quantifierBegin => 6
  | .groupBeginOrMod | .setRangeBegin => 3
  | .groupBegin | .quantifierMod _ _ _ | .backrefId _ | .hexEscSeq _ => 2
  | _ => 1

/-- Enough for `parseT`. -/
def parseFuel (symbols : List Sym) : Nat := (symbols.map Sym.weight).sum + 1

/-- parser/state.hpp:59-69 `operator<<`. -/
def advanceState (pat : List Byte) : PState → PState
  | .state i nodes symbols => parseT pat (parseFuel symbols) i nodes symbols
  | s => s

/-- parser/state.hpp:71-75 `advance_parser_state`, the fold. -/
def advanceTimes (pat : List Byte) : Nat → PState → PState
  | 0, s => s
  | n + 1, s => advanceTimes pat n (advanceState pat s)

/-- parser/parser.hpp:115-116 `initial_state`, `result` and parser/state.hpp:85-86 `final_parser_state`. -/
def parse (pat : List Byte) : PState := advanceTimes pat (pat.length + 1) (.state 0 [] [.begin])

end Mregex
