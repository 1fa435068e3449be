import Verif.Check.Suite
import Verif.Model.Lifetime
import Verif.Model.Instances

/-!
# Tests of expressions, type sequences and static strings

Checks of the model, not proofs of properties: the assertions of `test/xpr_ast_tests.cpp`, `test/type_sequence_tests.cpp`,
`test/static_string_tests.cpp`, `test/symbol_tests.cpp` and `test/type_traits_tests.cpp` in /repo evaluated in the model.
-/

namespace Mregex.Check
open Ast Spec

/-- test/xpr_ast_tests.cpp -/
def exprTests : List (Xpr.Expr × Ast) := [
  (.term .nothing, Ast.nothing),
  (.chr (ch 'a'), .lit (ch 'a')),
  (.concat [.chr (ch 'a')], .lit (ch 'a')),
  (.shiftRight (.chr (ch 'a')) (.chr (ch 'b')), .seq [.lit (ch 'a'), .lit (ch 'b')]),
  (.shiftRight (.shiftRight (.chr (ch 'a')) (.chr (ch 'b'))) (.chr (ch 'c')), .seq [.lit (ch 'a'), .lit (ch 'b'), .lit (ch 'c')]),
  (.concat [.chr (ch 'a'), .chr (ch 'b'), .chr (ch 'c')], .seq [.lit (ch 'a'), .lit (ch 'b'), .lit (ch 'c')]),
  (.concat [.chr (ch 'a'), .str (txt "bcd"), .chr (ch 'e'), .shiftRight (.term .wildcard) (.term .word),
      .bitOr (.term .lower) (.term .upper), .concat [.chr (ch 'f'), .chr (ch 'g')], .regex (txt "hi")],
    .seq [.lit (ch 'a'), .lit (ch 'b'), .lit (ch 'c'), .lit (ch 'd'), .lit (ch 'e'), .wildcard, Ast.word, .alt [Ast.lower, Ast.upper],
      .lit (ch 'f'), .lit (ch 'g'), .lit (ch 'h'), .lit (ch 'i')]),
  (.str (txt "abc"), .seq [.lit (ch 'a'), .lit (ch 'b'), .lit (ch 'c')]),
  (.shiftRight (.not (.term .word)) (.str (txt "abc")), .seq [.neg Ast.word, .lit (ch 'a'), .lit (ch 'b'), .lit (ch 'c')]),
  (.shiftRight (.shiftRight (.str (txt "ab")) (.zeroOrMore .greedy [.not (.term .digit)])) (.str (txt "xy")),
    .seq [.lit (ch 'a'), .lit (ch 'b'), star (.neg Ast.digit), .lit (ch 'x'), .lit (ch 'y')]),
  (.shiftRight (.regex (txt "ab?c+")) (.regex (txt ".*")),
    .seq [.lit (ch 'a'), Ast.optional (.lit (ch 'b')), plus (.lit (ch 'c')), star .wildcard]),
  (.bitOr (.chr (ch 'a')) (.chr (ch 'b')), .alt [.lit (ch 'a'), .lit (ch 'b')]),
  (.bitOr (.bitOr (.chr (ch 'a')) (.chr (ch 'b'))) (.chr (ch 'c')), .alt [.lit (ch 'a'), .lit (ch 'b'), .lit (ch 'c')]),
  (.either [.chr (ch 'a'), .chr (ch 'b'), .chr (ch 'c')], .alt [.lit (ch 'a'), .lit (ch 'b'), .lit (ch 'c')]),
  (.atomic [.chr (ch 'a'), .chr (ch 'b'), .chr (ch 'c')], Ast.atomic (.seq [.lit (ch 'a'), .lit (ch 'b'), .lit (ch 'c')])),
  (.shiftRight (.str (txt "ab")) (.bitOr (.chr (ch 'c')) (.chr (ch 'd'))),
    .seq [.lit (ch 'a'), .lit (ch 'b'), .alt [.lit (ch 'c'), .lit (ch 'd')]]),
  (.shiftRight (.shiftRight (.shiftRight (.term .beginLine) (.str (txt "ab"))) (.plus (.bitOr (.chr (ch 'c')) (.chr (ch 'd')))))
      (.term .endLine),
    .seq [.bol, .lit (ch 'a'), .lit (ch 'b'), plus (.alt [.lit (ch 'c'), .lit (ch 'd')]), .eol]),
  (.exactly 5 .greedy [.either [.term .beginLine, .shiftRight (.chr (ch 'a')) (.maybe .greedy [.chr (ch 'b')]),
      .atomic [.star (.str (txt "cd"))], .term .endLine]],
    .rep .greedy 5 (.fin 5) (.alt [.bol, .seq [.lit (ch 'a'), Ast.optional (.lit (ch 'b'))],
      Ast.atomic (star (.seq [.lit (ch 'c'), .lit (ch 'd')])), .eol])),
  (.concat [.ahead [.oneOrMore .lazy [.term .word]], .capture 1 (some (txt "test")) [.term .wildcard], .capture 2 none [.term .word],
      .negate (.behind [.regex (txt "ab{2}c")])],
    .seq [.look .ahead (.rep .lazy 1 .inf Ast.word), .cap 1 (some (txt "test")) .wildcard, .cap 2 none Ast.word,
      .neg (.look .behind (.seq [.lit (ch 'a'), .rep .greedy 2 (.fin 2) (.lit (ch 'b')), .lit (ch 'c')]))])]

example : exprTests.all evaluates = true := by decide +kernel

section
open TypeSeq

/-! test/type_sequence_tests.cpp; the types are numbered. -/
example : front ([] : List Nat) = none := by decide +kernel
example : front [1, 2, 3] = some 1 := by decide +kernel
example : pop ([] : List Nat) = [] := by decide +kernel
example : pop (push [] (.elem 1)) = ([] : List Nat) := by decide +kernel
example : push [] (.seq []) = ([] : List Nat) := by decide +kernel
example : push [] (.elem 1) = [1] := by decide +kernel
example : push (push (push [] (.elem 3)) (.elem 2)) (.elem 1) = [1, 2, 3] := by decide +kernel
example : pop (pop (push (push (push [] (.elem 3)) (.elem 2)) (.elem 1))) = [3] := by decide +kernel
example : push [1, 2] (.seq [3, 4]) = [3, 4, 1, 2] := by decide +kernel
example : concat [[1], [2, 3], [4, 5, 6], [7, 8, 9], [10, 10, 10, 10, 10]] = [1, 2, 3, 4, 5, 6, 7, 8, 9, 10, 10, 10, 10, 10] := by decide +kernel
example : reverse ([] : List Nat) = [] := by decide +kernel
example : reverse [1] = [1] := by decide +kernel
example : reverse [1, 2] = [2, 1] := by decide +kernel
example : reverse [1, 2, 3] = [3, 2, 1] := by decide +kernel
example : reverse [1, 2, 3, 4] = [4, 3, 2, 1] := by decide +kernel
example : reverse [1, 2, 3, 4, 5, 6, 7, 8] = [8, 7, 6, 5, 4, 3, 2, 1] := by decide +kernel
end

section
open StaticString

/-- The texts of test/static_string_tests.cpp -/
def staticTexts : List (List Byte) := [[], txt "a", txt "abc", txt "abc\u0000", txt "abc\u0000d"]

/-! test/static_string_tests.cpp: lengths, views, and iteration, both for literals and for `make_static_string`. -/
example : staticTexts.all (fun t => (deduce (literalArray t)).map length == some t.length) = true := by decide +kernel
example : staticTexts.all (fun t => ((deduce (literalArray t)).bind view) == some t) = true := by decide +kernel
example : staticTexts.all (fun t => ((deduce (literalArray t)).map iterate) == some t) = true := by decide +kernel
example : staticTexts.all (fun t => ((make t).map iterate) == some t) = true := by decide +kernel
end

/-! test/symbol_tests.cpp: subtraction of quantifiers, with `decrement_t` as subtraction of 1.  The predicates on symbols are equality in the model. -/
example : Bound.minus (.fin 2) 1 = .fin 1 := by decide
example : Bound.minus (.fin 1) 1 = .fin 0 := by decide
example : Bound.minus .inf 1 = .inf := by decide
example : Bound.minus (.fin 2) 2 = .fin 0 := by decide
example : Bound.minus .inf 2 = .inf := by decide

/-! test/type_traits_tests.cpp: `std::string` and `std::string_view` as lvalues and as rvalues. -/
example : Arg.isExpiringMemoryOwner ⟨.container false, false⟩ = false := by decide
example : Arg.isExpiringMemoryOwner ⟨.container false, true⟩ = true := by decide
example : Arg.isExpiringMemoryOwner ⟨.view, false⟩ = false := by decide
example : Arg.isExpiringMemoryOwner ⟨.view, true⟩ = false := by decide

end Mregex.Check
