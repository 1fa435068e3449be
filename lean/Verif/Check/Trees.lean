import Verif.Check.Suite

/-!
# Tests of the functions on trees

Checks of the model, not proofs of properties: the assertions of `test/ast_inversion_tests.cpp`, `test/ast_indexing_tests.cpp`, `test/ast_traits_tests.cpp`, `test/regex_traits_tests.cpp` in /repo evaluated in the model.
-/

namespace Mregex.Check
open Ast Spec

/-- test/ast_inversion_tests.cpp -/
def inversionTests : List (Ast × Ast) := [
  ((.set []),
    (.set [])),
  ((.lit 97#8),
    (.lit 97#8)),
  ((.rep .greedy 1 .inf (.lit 97#8)),
    (.rep .greedy 1 .inf (.lit 97#8))),
  ((.cap 1 none (.lit 97#8)),
    (.cap 1 none (.lit 97#8))),
  ((.alt [(.wildcard), (.lit 97#8)]),
    (.alt [(.wildcard), (.lit 97#8)])),
  ((.rep .greedy 3 (.fin 5) (.lit 97#8)),
    (.rep .greedy 3 (.fin 5) (.lit 97#8))),
  ((.seq [(.wildcard), (.lit 97#8)]),
    (.seq [(.lit 97#8), (.wildcard)])),
  ((.seq [(.lit 97#8), (.rep .greedy 0 .inf (.lit 98#8)), (.lit 99#8)]),
    (.seq [(.lit 99#8), (.rep .greedy 0 .inf (.lit 98#8)), (.lit 97#8)])),
  ((.seq [(.lit 97#8), (.lit 98#8), (.lit 99#8), (.lit 100#8)]),
    (.seq [(.lit 100#8), (.lit 99#8), (.lit 98#8), (.lit 97#8)])),
  ((.seq [(.lit 97#8), (.lit 98#8), (.seq [(.empty), (.lit 99#8)])]),
    (.seq [(.seq [(.lit 99#8), (.empty)]), (.lit 98#8), (.lit 97#8)])),
  ((.alt [(.lit 97#8), (.lit 98#8), (.seq [(.empty), (.lit 99#8)])]),
    (.alt [(.lit 97#8), (.lit 98#8), (.seq [(.lit 99#8), (.empty)])])),
  ((.alt [(.lit 97#8), (.lit 98#8), (.look .ahead (.seq [(.empty), (.lit 99#8)]))]),
    (.alt [(.lit 97#8), (.lit 98#8), (.look .behind (.seq [(.empty), (.lit 99#8)]))])),
  ((.seq [(.rep .possessive 1 (.fin 1) (.lit 120#8)), (.rep .greedy 0 (.fin 1) (.seq [(.lit 97#8), (.neg (.look .behind (.wildcard))), (.lit 98#8)])), (.lit 121#8)]),
    (.seq [(.lit 121#8), (.rep .greedy 0 (.fin 1) (.seq [(.lit 98#8), (.neg (.look .ahead (.wildcard))), (.lit 97#8)])), (.rep .possessive 1 (.fin 1) (.lit 120#8))]))]

example : inversionTests.all (fun t => same t.1.invert t.2) = true := by decide +kernel

/-- test/ast_indexing_tests.cpp -/
def indexingTests : List (Ast × Ast) := [
  ((.set []),
    (.set [])),
  ((.wildcard),
    (.wildcard)),
  ((.lit 97#8),
    (.lit 97#8)),
  ((.set [.range 97#8 122#8, .range 65#8 90#8, .range 48#8 57#8, .lit 95#8]),
    (.set [.range 97#8 122#8, .range 65#8 90#8, .range 48#8 57#8, .lit 95#8])),
  ((.wordB),
    (.wordB)),
  ((.seq [(.range 48#8 57#8), (.set [.set [.lit 10#8, .lit 13#8], .lit 32#8, .lit 9#8, .lit 11#8, .lit 12#8])]),
    (.seq [(.range 48#8 57#8), (.set [.set [.lit 10#8, .lit 13#8], .lit 32#8, .lit 9#8, .lit 11#8, .lit 12#8])])),
  ((.cap 1 none (.wildcard)),
    (.cap 1 none (.wildcard))),
  ((.seq [(.cap 1 none (.wildcard))]),
    (.seq [(.cap 1 none (.wildcard))])),
  ((.alt [(.cap 1 none (.wildcard))]),
    (.alt [(.cap 1 none (.wildcard))])),
  ((.look .ahead (.cap 1 none (.wildcard))),
    (.look .ahead (.cap 1 none (.wildcard)))),
  ((.seq [(.set [.range 97#8 122#8, .range 65#8 90#8, .range 48#8 57#8, .lit 95#8]), (.cap 1 none (.wildcard)), (.range 48#8 57#8)]),
    (.seq [(.set [.range 97#8 122#8, .range 65#8 90#8, .range 48#8 57#8, .lit 95#8]), (.cap 1 none (.wildcard)), (.range 48#8 57#8)])),
  ((.seq [(.set [.range 97#8 122#8, .range 65#8 90#8, .range 48#8 57#8, .lit 95#8]), (.rep .greedy 0 .inf (.cap 1 none (.wildcard))), (.range 48#8 57#8)]),
    (.seq [(.set [.range 97#8 122#8, .range 65#8 90#8, .range 48#8 57#8, .lit 95#8]), (.rep .greedy 0 .inf (.cap 1 none (.wildcard))), (.range 48#8 57#8)])),
  ((.cap 0 none (.cap 0 none (.set []))),
    (.cap 1 none (.cap 2 none (.set [])))),
  ((.seq [(.cap 0 none (.set [])), (.cap 0 none (.set []))]),
    (.seq [(.cap 1 none (.set [])), (.cap 2 none (.set []))])),
  ((.cap 0 none (.cap 0 none (.cap 0 none (.cap 0 none (.set []))))),
    (.cap 1 none (.cap 2 none (.cap 3 none (.cap 4 none (.set [])))))),
  ((.seq [(.cap 0 none (.cap 0 none (.cap 0 none (.cap 0 none (.set []))))), (.cap 0 none (.cap 0 none (.cap 0 none (.cap 0 none (.set [])))))]),
    (.seq [(.cap 1 none (.cap 2 none (.cap 3 none (.cap 4 none (.set []))))), (.cap 5 none (.cap 6 none (.cap 7 none (.cap 8 none (.set [])))))])),
  ((.cap 0 none (.seq [(.cap 0 none (.set [])), (.cap 0 none (.set [])), (.cap 0 none (.set []))])),
    (.cap 1 none (.seq [(.cap 2 none (.set [])), (.cap 3 none (.set [])), (.cap 4 none (.set []))]))),
  ((.cap 0 none (.seq [(.cap 0 none (.seq [(.cap 0 none (.set [])), (.cap 0 none (.set []))])), (.cap 0 none (.set [])), (.cap 0 none (.set [])), (.cap 0 none (.seq [(.cap 0 none (.set [])), (.cap 0 none (.cap 0 none (.set []))), (.cap 0 none (.set []))]))])),
    (.cap 1 none (.seq [(.cap 2 none (.seq [(.cap 3 none (.set [])), (.cap 4 none (.set []))])), (.cap 5 none (.set [])), (.cap 6 none (.set [])), (.cap 7 none (.seq [(.cap 8 none (.set [])), (.cap 9 none (.cap 10 none (.set []))), (.cap 11 none (.set []))]))])))]

example : indexingTests.all (fun t => same t.1.indexCaptures t.2) = true := by decide +kernel

/-- test/ast_traits_tests.cpp `is_trivially_matchable` -/
def trivialTests : List (Ast × Bool) := [
  ((.set []), true),
  ((.neg (.set [])), true),
  ((.lit 97#8), true),
  ((.set [.set [.lit 10#8, .lit 13#8], .lit 32#8, .lit 9#8, .lit 11#8, .lit 12#8]), true),
  ((.wildcard), true),
  ((.range 97#8 122#8), true),
  ((.set [(.wildcard), (.lit 98#8), (.set [.set [.lit 10#8, .lit 13#8], .lit 32#8, .lit 9#8, .lit 11#8, .lit 12#8])]), true),
  ((.seq [(.wildcard)]), true),
  ((.alt [(.wildcard)]), true),
  ((.rep .possessive 1 (.fin 1) (.wildcard)), true),
  ((.rep .greedy 1 (.fin 1) (.wildcard)), true),
  ((.alt [(.set [.set [.lit 10#8, .lit 13#8], .lit 32#8, .lit 9#8, .lit 11#8, .lit 12#8]), (.lit 97#8), (.lit 98#8)]), true),
  ((.bol), false),
  ((.eoi), false),
  ((.seq [(.wildcard), (.set [.set [.lit 10#8, .lit 13#8], .lit 32#8, .lit 9#8, .lit 11#8, .lit 12#8])]), false),
  ((.alt [(.wildcard), (.bol)]), false),
  ((.rep .possessive 1 (.fin 1) (.rep .greedy 1 .inf (.wildcard))), false),
  ((.cap 1 none (.wildcard)), false),
  ((.rep .greedy 1 (.fin 1) (.rep .greedy 0 (.fin 1) (.wildcard))), false),
  ((.backref 1), false),
  ((.namedBackref (txt "a")), false),
  ((.rep .greedy 0 .inf (.lit 97#8)), false),
  ((.alt [(.rep .greedy 0 .inf (.set [.set [.lit 10#8, .lit 13#8], .lit 32#8, .lit 9#8, .lit 11#8, .lit 12#8])), (.lit 97#8), (.lit 98#8)]), false)]

example : trivialTests.all (fun t => t.1.triv == t.2) = true := by decide +kernel

/-- test/ast_traits_tests.cpp `is_zero_length_matcher` -/
def zeroLengthTests : List (Ast × Bool) := [
  ((.empty), true),
  ((.backref 1), true),
  ((.namedBackref (txt "abc")), true),
  ((.bol), true),
  ((.boi), true),
  ((.eol), true),
  ((.eoi), true),
  ((.wordB), true),
  ((.neg (.wordB)), true),
  ((.look .ahead (.wildcard)), true),
  ((.look .behind (.wildcard)), true),
  ((.neg (.look .ahead (.wildcard))), true),
  ((.neg (.look .behind (.wildcard))), true),
  ((.rep .greedy 1 .inf (.empty)), true),
  ((.rep .greedy 0 (.fin 1) (.seq [(.wildcard), (.set [.range 97#8 122#8, .range 65#8 90#8, .range 48#8 57#8, .lit 95#8])])), true),
  ((.rep .greedy 1 .inf (.rep .greedy 0 (.fin 1) (.seq [(.wildcard), (.set [.range 97#8 122#8, .range 65#8 90#8, .range 48#8 57#8, .lit 95#8])]))), true),
  ((.seq [(.rep .greedy 0 (.fin 1) (.wildcard)), (.empty)]), true),
  ((.rep .greedy 0 (.fin 1) (.alt [(.wildcard), (.set [.range 97#8 122#8, .range 65#8 90#8, .range 48#8 57#8, .lit 95#8])])), true),
  ((.alt [(.rep .greedy 0 (.fin 1) (.wildcard)), (.wordB)]), true),
  ((.alt [(.set [.range 97#8 122#8, .range 65#8 90#8, .range 48#8 57#8, .lit 95#8]), (.empty), (.lit 97#8)]), true),
  ((.seq [(.cap 1 none (.rep .greedy 0 (.fin 1) (.wildcard))), (.rep .greedy 0 .inf (.set [.range 97#8 122#8, .range 65#8 90#8, .range 48#8 57#8, .lit 95#8]))]), true),
  ((.rep .possessive 1 (.fin 1) (.seq [(.cap 1 none (.rep .greedy 0 (.fin 1) (.wildcard))), (.rep .greedy 0 .inf (.set [.range 97#8 122#8, .range 65#8 90#8, .range 48#8 57#8, .lit 95#8]))])), true),
  ((.lit 97#8), false),
  ((.set []), false),
  ((.neg (.set [.range 97#8 122#8, .range 65#8 90#8, .range 48#8 57#8, .lit 95#8])), false),
  ((.seq [(.empty), (.range 48#8 57#8)]), false),
  ((.alt [(.set [.set [.lit 10#8, .lit 13#8], .lit 32#8, .lit 9#8, .lit 11#8, .lit 12#8]), (.lit 97#8)]), false),
  ((.cap 1 none (.wildcard)), false),
  ((.seq [(.cap 1 none (.rep .greedy 0 (.fin 1) (.wildcard))), (.rep .greedy 1 .inf (.range 48#8 57#8))]), false),
  ((.rep .possessive 1 (.fin 1) (.rep .greedy 1 .inf (.range 48#8 57#8))), false)]

example : zeroLengthTests.all (fun t => t.1.zlm == t.2) = true := by decide +kernel

/-- test/ast_traits_tests.cpp `is_assertion` -/
def assertionTests : List (Ast × Bool) := [
  ((.bol), true),
  ((.boi), true),
  ((.eol), true),
  ((.eoi), true),
  ((.wordB), true),
  ((.neg (.wordB)), true),
  ((.neg (.wordB)), true),
  ((.look .ahead (.wildcard)), true),
  ((.look .behind (.wildcard)), true),
  ((.neg (.look .ahead (.wildcard))), true),
  ((.neg (.look .behind (.wildcard))), true),
  ((.empty), false),
  ((.seq [(.wordB), (.set [.range 97#8 122#8, .range 65#8 90#8, .range 48#8 57#8, .lit 95#8])]), false),
  ((.neg (.set [.range 97#8 122#8, .range 65#8 90#8, .range 48#8 57#8, .lit 95#8])), false),
  ((.rep .greedy 1 .inf (.look .ahead (.wildcard))), false)]

example : assertionTests.all (fun t => t.1.isAssertion == t.2) = true := by decide +kernel

/-- test/ast_traits_tests.cpp `is_name_spec_of` -/
def nameSpecTests : List (List Byte × List GroupName) := [
  (txt "", []),
  (txt "abc", []),
  (txt "a?b+|c*d", []),
  (txt "(a)", [none]),
  (txt "(a){5}", [none]),
  (txt "(a)+", [none]),
  (txt "a?(b+)c*", [none]),
  (txt "(a?)(b+(c{1,2}))c*", [none, none, none]),
  (txt "(?<test>a)", [some (txt "test")]),
  (txt "(?<test>a)+", [some (txt "test")]),
  (txt "(?<test>a){5,10}", [some (txt "test")]),
  (txt "(a?)(?<test>b+)c*", [none, some (txt "test")]),
  (txt "(a?)(?<test>b+b(b))c*", [none, some (txt "test"), none]),
  (txt "(?=(?<ahead>a)+)(?<!(?<behind>a)+)", [some (txt "ahead"), some (txt "behind")]),
  (txt "(?<a1>a?)(?<a2>b+b(b))c*", [some (txt "a1"), some (txt "a2"), none]),
  (txt "((?<a1>.)(?<a2>(.))((?<a3>.(?<a4>(?<a5>.).))(.)))", [none, some (txt "a1"), some (txt "a2"), none, none, some (txt "a3"), some (txt "a4"), some (txt "a5"), none]),
  (txt "(?<a1>.){5}(?<a2>.){5,10}?(?<a3>.){5,}+", [some (txt "a1"), some (txt "a2"), some (txt "a3")])]

example : nameSpecTests.all nameSpec = true := by decide +kernel

/-- test/regex_traits_tests.cpp `regex_capture_name_spec_t` -/
def regexNameSpecTests : List (List Byte × List GroupName) := [
  (txt "", [none]),
  (txt "([a-zA-Z][a-zA-Z0-9]*)://([^ /]+)(/[^ ]*)?", [none, none, none, none]),
  (txt "(?<test>[^ @]+)@([^ @]+)", [none, some (txt "test"), none])]

example : regexNameSpecTests.all regexNames = true := by decide +kernel

end Mregex.Check
