import Verif.Model.Ast

/-!
# Building nodes from the parser's node stack

Model of `ast/build.hpp` and `symbols/actions.hpp`.  The node stack is a list whose head is the top (`type_sequence`, `push_t`
adds at the front).
-/

namespace Mregex.Ast

/-- build.hpp:115-141 `make_sequence` on the stack `first, second, ...`; the four specialisations. -/
def makeSequence (first second : Ast) : Ast :=
  match first, second with
  | .seq l, .seq l' => .seq (l' ++ l)
  | .seq l, b => .seq (b :: l)
  | a, .seq l' => .seq (l' ++ [a])
  | a, b => .seq [b, a]

/-- build.hpp:143-153 `make_alternation`; only the earlier node is looked at. -/
def makeAlternation (first second : Ast) : Ast :=
  match second with
  | .alt l => .alt (l ++ [first])
  | b => .alt [b, first]

end Mregex.Ast

namespace Mregex
open Ast

/-- symbols/actions.hpp:15-67, the symbols derived from `semantic_action`.  `make_star`, `make_plus`, `make_optional`, `make_atomic` (46-55) are
instances of `make_repetition`. -/
inductive Action
  | makeSequence | makeAlternation
  | makeSet | makeSetFromCurrentChar | makeSetFromStack | makeRange | makeRangeFromStack
  | makeDigit | makeWord | makeLinebreak | makeNegated | makeEmpty
  | makeBeginningOfLine | makeBeginningOfInput | makeEndOfLine | makeEndOfInput
  | makeWordBoundary | makeWhitespace | makeWildcard | makeLiteral
  | pushLiteral (c : Byte)
  | makeCapture (name : GroupName)
  | makeRepetition (m : Mode) (lo : Nat) (hi : Bound)
  | makeBackref (id : Nat)
  | makeNamedBackref (name : List Byte)
  | makeLookaround (d : LookDir)
  deriving DecidableEq, Repr

/-- build.hpp:19-244 `build<Symbol, Token, Nodes>`; the token is `none` for `symbol::empty`.  `none`: no specialisation fits, so
the (undefined) primary template would be instantiated, which does not compile.  The ID given by `make_capture` (155-161) is the number of captures on the
stack plus one. -/
def build (a : Action) (token : Option Byte) (nodes : List Ast) : Option (List Ast) :=
  match a with
  | .makeLiteral => token.map fun c => .lit c :: nodes                                    -- 24-28
  | .pushLiteral c => some (.lit c :: nodes)                                              -- 30-34
  | .makeEmpty => some (.empty :: nodes)                                                  -- 36-40
  | .makeDigit => some (digit :: nodes)                                                   -- 42-46
  | .makeWord => some (word :: nodes)                                                     -- 48-52
  | .makeWordBoundary => some (.wordB :: nodes)                                           -- 54-58
  | .makeWhitespace => some (whitespace :: nodes)                                         -- 60-64
  | .makeLinebreak => some (linebreak :: nodes)                                           -- 66-70
  | .makeWildcard => some (.wildcard :: nodes)                                            -- 72-76
  | .makeBeginningOfLine => some (.bol :: nodes)                                          -- 78-82
  | .makeEndOfLine => some (.eol :: nodes)                                                -- 84-88
  | .makeBeginningOfInput => some (.boi :: nodes)                                         -- 90-94
  | .makeEndOfInput => some (.eoi :: nodes)                                               -- 96-100
  | .makeLookaround d =>                                                                  -- 102-106
    match nodes with
    | first :: rest => some (.look d first :: rest)
    | [] => none
  | .makeNegated =>                                                                       -- 108-112
    match nodes with
    | first :: rest => some (.neg first :: rest)
    | [] => none
  | .makeSequence =>                                                                      -- 114-141
    match nodes with
    | first :: second :: rest => some (makeSequence first second :: rest)
    | _ => none
  | .makeAlternation =>                                                                   -- 143-153
    match nodes with
    | first :: second :: rest => some (makeAlternation first second :: rest)
    | _ => none
  | .makeCapture name =>                                                                  -- 155-161
    match nodes with
    | first :: rest => some (.cap (captureCountAll (first :: rest) + 1) name first :: rest)
    | [] => none
  | .makeBackref id => some (.backref id :: nodes)                                        -- 163-167
  | .makeNamedBackref name => some (.namedBackref name :: nodes)                          -- 169-173
  | .makeRepetition m lo hi =>                                                            -- 175-179
    match nodes with
    | first :: rest => some (.rep m lo hi first :: rest)
    | [] => none
  | .makeSet => some (.set [] :: nodes)                                                   -- 182-186
  | .makeSetFromCurrentChar =>                                                            -- 189-199
    match token, nodes with
    | some c, .set l :: rest => some (.set (.lit c :: l) :: rest)
    | some c, nodes => some (.set [.lit c] :: nodes)
    | none, _ => none
  | .makeSetFromStack =>                                                                  -- 202-218
    match nodes with
    | .set l :: .set l' :: rest => some (.set (l ++ l') :: rest)
    | first :: .set l' :: rest => some (.set (first :: l') :: rest)
    | first :: rest => some (.set [first] :: rest)
    | [] => none
  | .makeRange =>                                                                         -- 221-231
    match token, nodes with
    | some a, .set (.lit b :: l) :: rest => some (.set (.range b a :: l) :: rest)
    | some c, .set (first :: l) :: rest => some (.set (.lit c :: .lit (ch '-') :: first :: l) :: rest)
    | _, _ => none
  | .makeRangeFromStack =>                                                                -- 234-244
    match nodes with
    | .set (.lit a :: .lit b :: l) :: rest => some (.set (.range b a :: l) :: rest)
    | .set (.lit c :: first :: l) :: rest => some (.set (.lit c :: .lit (ch '-') :: first :: l) :: rest)
    | _ => none

end Mregex
