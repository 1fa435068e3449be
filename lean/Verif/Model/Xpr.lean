import Verif.Model.Methods
import Verif.Model.Parser

/-!
# Expression-based API

Model of `xpr/adapters.hpp`, `xpr/components.hpp`, `xpr/operators.hpp`, `xpr/providers.hpp`, `xpr/flags.hpp`.

All functions there take `regex_adapter<Node>` without flags and return one (components.hpp); the functions below work on
the nodes.
-/

namespace Mregex.Xpr
open Mregex Ast

/-- adapters.hpp:17-27 `flatten` with `Wrapper = ast::sequence`. -/
def flattenSeq (a b : Ast) : Ast :=
  match a, b with
  | .seq l, .seq l' => .seq (l ++ l')
  | .seq l, b => .seq (l ++ [b])
  | a, .seq l' => .seq (a :: l')
  | a, b => .seq [a, b]

/-- adapters.hpp:17-27 `flatten` with `Wrapper = ast::alternation`. -/
def flattenAlt (a b : Ast) : Ast :=
  match a, b with
  | .alt l, .alt l' => .alt (l ++ l')
  | .alt l, b => .alt (l ++ [b])
  | a, .alt l' => .alt (a :: l')
  | a, b => .alt [a, b]

/-- adapters.hpp:75-89 `flat_wrap_sequence`; `none` stands for the ill-formed `Wrapper<>` of no arguments. -/
def flatWrap (flatten : Ast → Ast → Ast) : List Ast → Option Ast
  | [] => none
  | [a] => some a
  | a :: b :: rest => flatWrap flatten (flatten a b :: rest)
termination_by l => l.length

/-- components.hpp:15-19 `concat`. -/
def concat (l : List Ast) : Option Ast := flatWrap flattenSeq l
/-- components.hpp:22-26 `either`. -/
def either (l : List Ast) : Option Ast := flatWrap flattenAlt l

/-- adapters.hpp:59-63 `pack_sequence`, the node that is wrapped. -/
def pack : List Ast → Ast
  | [a] => a
  | l => .seq l

/-- components.hpp:29-33. -/
def atomic (l : List Ast) : Ast := Ast.atomic (pack l)
/-- components.hpp:36-48 and providers.hpp:12-17. -/
def capture (id : Nat) (name : GroupName) (l : List Ast) : Ast := .cap id name (pack l)
/-- components.hpp:51-62 `between<A, B, Mode>` and providers.hpp:19-24. -/
def between (a b : Nat) (m : Mode) (l : List Ast) : Ast := .rep m a (.fin b) (pack l)
/-- components.hpp:64-75 `at_least<N, Mode>`. -/
def atLeast (n : Nat) (m : Mode) (l : List Ast) : Ast := .rep m n .inf (pack l)
/-- components.hpp:78-88 `exactly<N, Mode>`. -/
def exactly (n : Nat) (m : Mode) (l : List Ast) : Ast := between n n m l
/-- components.hpp:91-101. -/
def zeroOrMore (m : Mode) (l : List Ast) : Ast := atLeast 0 m l
/-- components.hpp:104-114. -/
def oneOrMore (m : Mode) (l : List Ast) : Ast := atLeast 1 m l
/-- components.hpp:117-127. -/
def maybe (m : Mode) (l : List Ast) : Ast := between 0 1 m l
/-- components.hpp:145-146 `chr<C>`. -/
def chr (c : Byte) : Ast := .lit c
/-- components.hpp:148-149 and adapters.hpp:11-15, 36-40 `str<String>`. -/
def str (w : List Byte) : Ast := .seq (w.map .lit)
/-- components.hpp:151-152 `range<A, B>`. -/
def range (a b : Byte) : Ast := .range a b
/-- components.hpp:154-155 `group<ID>`. -/
def group (id : Nat) : Ast := .backref id
/-- components.hpp:157-158 `group_named<Name>`. -/
def groupNamed (name : List Byte) : Ast := .namedBackref name
/-- components.hpp:160-161 `negate`. -/
def negate (a : Ast) : Ast := .neg a
/-- components.hpp:163-168 `ahead`. -/
def ahead (l : List Ast) : Ast := .look .ahead (pack l)
/-- components.hpp:170-174 `behind`. -/
def behind (l : List Ast) : Ast := .look .behind (pack l)

/-- operators.hpp:7-11 `>>`. -/
def shiftRight (a b : Ast) : Option Ast := concat [a, b]
/-- operators.hpp:13-17 `|`. -/
def bitOr (a b : Ast) : Option Ast := either [a, b]
/-- operators.hpp:19-23 `!`. -/
def opNot (a : Ast) : Ast := negate a
/-- operators.hpp:25-29 unary `*`. -/
def opStar (a : Ast) : Ast := zeroOrMore .greedy [a]
/-- operators.hpp:31-35 unary `+`. -/
def opPlus (a : Ast) : Ast := oneOrMore .greedy [a]

/-- components.hpp:129-143, the constants. -/
inductive Terminal
  | empty | nothing | beginLine | endLine | beginInput | endInput | wordBoundary | whitespace | wildcard | lower | upper | digit | word
  | linebreak
  deriving DecidableEq, Repr

/-- components.hpp:129-143. -/
def Terminal.node : Terminal → Ast
  | .empty => .empty
  | .nothing => Ast.nothing
  | .beginLine => .bol
  | .endLine => .eol
  | .beginInput => .boi
  | .endInput => .eoi
  | .wordBoundary => .wordB
  | .whitespace => Ast.whitespace
  | .wildcard => .wildcard
  | .lower => Ast.lower
  | .upper => Ast.upper
  | .digit => Ast.digit
  | .word => Ast.word
  | .linebreak => Ast.linebreak

/-- C++ expressions built from the names in components.hpp, operators.hpp and flags.hpp.  Functions that have overloads without a
`Mode` argument call the ones with `match_mode::greedy`; a capture without a name has the name `none`. -/
inductive Expr
  | term (t : Terminal)
  | chr (c : Byte)
  | str (w : List Byte)
  | range (a b : Byte)
  | group (id : Nat)
  | groupNamed (name : List Byte)
  | regex (pattern : List Byte)
  | concat (l : List Expr)
  | either (l : List Expr)
  | atomic (l : List Expr)
  | capture (id : Nat) (name : GroupName) (l : List Expr)
  | between (a b : Nat) (m : Mode) (l : List Expr)
  | atLeast (n : Nat) (m : Mode) (l : List Expr)
  | exactly (n : Nat) (m : Mode) (l : List Expr)
  | zeroOrMore (m : Mode) (l : List Expr)
  | oneOrMore (m : Mode) (l : List Expr)
  | maybe (m : Mode) (l : List Expr)
  | ahead (l : List Expr)
  | behind (l : List Expr)
  | negate (e : Expr)
  | shiftRight (e e' : Expr)
  | bitOr (e e' : Expr)
  | not (e : Expr)
  | star (e : Expr)
  | plus (e : Expr)
  | addFlags (fl : List RegexFlag) (e : Expr)
  | clearFlags (e : Expr)

/-- A node as the type `regex_adapter<Node>` without flags (adapters.hpp:48-49 `to_regex`). -/
def toRegex (a : Ast) : Regex := ⟨a, []⟩

/-- Arguments of type `regex_adapter<Nodes>...`: template argument deduction fails for adapters with flags. -/
def node (R : Regex) : Option Ast := if R.flags = [] then some R.ast else none

/-- Functions that pack their operands: no operands would give the ill-formed `sequence<>` (astfwd.hpp:10-11). -/
def packed (f : List Ast → Ast) (l : List Ast) : Option Regex := if l = [] then none else some (toRegex (f l))

mutual
/-- The type of an expression; `none`: the expression does not compile.  The requirements that are checked when the regex is used, e.g.
that the operand of a negation is an assertion or matches one character, are not checked here but in `Ok`. -/
def eval : Expr → Option Regex
  | .term t => some (toRegex t.node)
  | .chr c => some (toRegex (chr c))
  | .str w => if w = [] then none else some (toRegex (str w))
  | .range a b => some (toRegex (range a b))
  | .group id => some (toRegex (group id))
  | .groupNamed name => some (toRegex (groupNamed name))
  | .regex p =>                                                   -- components.hpp:176-177, regex.hpp:24-26, parser.hpp:136-140
    match parse p with
    | .result a .success => some (toRegex a)
    | _ => none
  | .concat l => (operands l).bind fun l => (concat l).map toRegex
  | .either l => (operands l).bind fun l => (either l).map toRegex
  | .atomic l => (operands l).bind (packed atomic)
  | .capture id name l => (operands l).bind (packed (capture id name))
  | .between a b m l => (operands l).bind (packed (between a b m))
  | .atLeast n m l => (operands l).bind (packed (atLeast n m))
  | .exactly n m l => (operands l).bind (packed (exactly n m))
  | .zeroOrMore m l => (operands l).bind (packed (zeroOrMore m))
  | .oneOrMore m l => (operands l).bind (packed (oneOrMore m))
  | .maybe m l => (operands l).bind (packed (maybe m))
  | .ahead l => (operands l).bind (packed ahead)
  | .behind l => (operands l).bind (packed behind)
  | .negate e => ((eval e).bind node).map fun a => toRegex (negate a)
  | .shiftRight e e' => ((eval e).bind node).bind fun a => ((eval e').bind node).bind fun b => (shiftRight a b).map toRegex
  | .bitOr e e' => ((eval e).bind node).bind fun a => ((eval e').bind node).bind fun b => (bitOr a b).map toRegex
  | .not e => ((eval e).bind node).map fun a => toRegex (opNot a)
  | .star e => ((eval e).bind node).map fun a => toRegex (opStar a)
  | .plus e => ((eval e).bind node).map fun a => toRegex (opPlus a)
  | .addFlags fl e => (eval e).map fun R => ⟨R.ast, R.flags ++ fl⟩   -- flags.hpp:11-12, regex.hpp:56-57
  | .clearFlags e => (eval e).map fun R => toRegex R.ast              -- flags.hpp:17-18, regex.hpp:62
/-- The arguments of a function. -/
def operands : List Expr → Option (List Ast)
  | [] => some []
  | e :: l => ((eval e).bind node).bind fun a => (operands l).map (a :: ·)
end

end Mregex.Xpr
