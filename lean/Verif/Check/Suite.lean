import Verif.Model.Generator
import Verif.Model.Parser
import Verif.Model.StaticString
import Verif.Model.TypeSeq
import Verif.Model.Xpr
import Verif.Spec.Openers

/-!
# How a test of the library is evaluated in the model

The modules under `Verif/Check` are tests, not proofs of properties: they compare the model with the assertions in `/repo/test`, which
the compiler checks for the library itself.
-/

namespace Mregex.Check
open Ast

/-- The tree of an accepted pattern. -/
def compiled (w : List Byte) : Option Ast :=
  match parse w with
  | .result a .success => some a
  | _ => none

/-- `regex<pattern, flags...>::method(text) == expected`. -/
def verdict : Method × List Byte × List RegexFlag × List Byte × Bool → Bool
  | (M, w, fl, s, e) => ((compiled w).bind fun a => ((Regex.mk a fl).invoke M .randomAccess s).map (·.matched)) == some e

/-- `std::ranges::distance(regex<pattern, flags...>::find_all(text)) == expected`, and the same for `tokenize`. -/
def elements : Method × List Byte × List RegexFlag × List Byte × Nat → Bool
  | (M, w, fl, s, n) =>
    ((compiled w).bind fun a => (rangeElements (Regex.mk a fl) M .randomAccess s (s.length + 2)).map fun r => (r.1.length, r.2)) ==
      some (n, true)

/-- `parser<pattern>::accepted == expected`. -/
def acceptance : List Byte × Bool → Bool
  | (w, e) => (compiled w).isSome == e

/-- `std::is_same_v<parser_verdict<pattern>, parsing::syntax_error<i>>`. -/
def errorAt : List Byte × Nat → Bool
  | (w, i) =>
    match parse w with
    | .result _ (.syntaxError j) => i == j
    | _ => false

mutual
/-- `std::is_same_v` on trees. -/
def same : Ast → Ast → Bool
  | .empty, .empty => true
  | .bol, .bol => true
  | .boi, .boi => true
  | .eol, .eol => true
  | .eoi, .eoi => true
  | .wordB, .wordB => true
  | .wildcard, .wildcard => true
  | .lit c, .lit d => c == d
  | .range a b, .range c d => a == c && b == d
  | .set l, .set m => sameAll l m
  | .neg a, .neg b => same a b
  | .seq l, .seq m => sameAll l m
  | .alt l, .alt m => sameAll l m
  | .cap i n a, .cap j k b => i == j && n == k && same a b
  | .rep m a b x, .rep n c d y => m == n && a == c && b == d && same x y
  | .look d a, .look e b => d == e && same a b
  | .backref i, .backref j => i == j
  | .namedBackref n, .namedBackref k => n == k
  | _, _ => false
def sameAll : List Ast → List Ast → Bool
  | [], [] => true
  | a :: l, b :: m => same a b && sameAll l m
  | _, _ => false
end

/-- `std::is_same_v<ast_of<pattern>, tree>`. -/
def tree : List Byte × Ast → Bool
  | (w, t) => ((compiled w).map fun a => same a t) == some true

/-- `std::is_same_v<capture_name_spec_t<ast_of<pattern>>, names>`. -/
def nameSpec : List Byte × List GroupName → Bool
  | (w, l) => (compiled w).map Ast.nameSpec == some l

/-- `std::is_same_v<regex_capture_name_spec_t<regex<pattern>>, names>`. -/
def regexNames : List Byte × List GroupName → Bool
  | (w, l) => ((compiled w).map fun a => (Regex.mk a []).names) == some l

/-- `std::is_same_v<regex_ast_t<decltype(expression)>, tree>`. -/
def evaluates : Xpr.Expr × Ast → Bool
  | (e, t) => ((Xpr.eval e).map fun R => same R.ast t) == some true

end Mregex.Check
