import Verif.Check.Suite

/-!
# Tests of `search`, `find_all` and `tokenize`

Checks of the model, not proofs of properties: the assertions of `test/regex_search_tests.cpp`, `test/regex_iteration_tests.cpp`, `test/iterator_api_tests.cpp`, `test/match_result_tests.cpp` in /repo evaluated in the model.
-/

namespace Mregex.Check
open Ast Spec

/-- test/regex_search_tests.cpp -/
def searchTests : List (Method × List Byte × List RegexFlag × List Byte × Bool) := [
  (.search, txt "([a-zA-Z][a-zA-Z0-9]*)://([^ /]+)(/[^ ]*)?", [], txt "https://google.com", true),
  (.search, txt "([a-zA-Z][a-zA-Z0-9]*)://([^ /]+)(/[^ ]*)?", [], txt "      https://google.com", true),
  (.search, txt "([a-zA-Z][a-zA-Z0-9]*)://([^ /]+)(/[^ ]*)?", [], txt "https://google.com       ", true),
  (.search, txt "([a-zA-Z][a-zA-Z0-9]*)://([^ /]+)(/[^ ]*)?", [], txt "... https://google.com ...", true),
  (.search, txt "([a-zA-Z][a-zA-Z0-9]*)://([^ /]+)(/[^ ]*)?", [], txt "... https://google.com\n ... https://youtube.com ...", true),
  (.search, txt "([^ @]+)@([^ @]+)", [], txt "sample@gmail.com", true),
  (.search, txt "([^ @]+)@([^ @]+)", [], txt "      sample@gmail.com", true),
  (.search, txt "([^ @]+)@([^ @]+)", [], txt "sample@gmail.com      ", true),
  (.search, txt "([^ @]+)@([^ @]+)", [], txt "... sample@gmail.com ...", true),
  (.search, txt "([^ @]+)@([^ @]+)", [], txt "... sample@gmail.com\n ... name.user@service.com ...", true),
  (.search, txt "[^]", [], txt " ", true),
  (.search, txt "[^]", [], txt "a", true),
  (.search, txt "[^]", [], txt "0", true),
  (.search, txt "[^]", [], txt "abcd0123@#$%", true),
  (.search, txt "^abc", [], txt "abcdefg", true),
  (.search, txt "abc$", [], txt "... abc", true),
  (.search, txt "^", [], txt "abcdefg", true),
  (.search, txt "$", [], txt "... abc", true),
  (.search, txt "^", [], txt "", true),
  (.search, txt "$", [], txt "", true),
  (.search, txt "^$", [], txt "", true),
  (.search, txt "^$", [], txt "", true),
  (.search, txt "([a-zA-Z][a-zA-Z0-9]*)://([^ /]+)(/[^ ]*)?", [], txt "https:// google.com", false),
  (.search, txt "([a-zA-Z][a-zA-Z0-9]*)://([^ /]+)(/[^ ]*)?", [], txt "", false),
  (.search, txt "([a-zA-Z][a-zA-Z0-9]*)://([^ /]+)(/[^ ]*)?", [], txt "     google.com       ", false),
  (.search, txt "([a-zA-Z][a-zA-Z0-9]*)://([^ /]+)(/[^ ]*)?", [], txt "... ", false),
  (.search, txt "([^ @]+)@([^ @]+)", [], txt "samplegmail.com", false),
  (.search, txt "([^ @]+)@([^ @]+)", [], txt "", false),
  (.search, txt "([^ @]+)@([^ @]+)", [], txt "      samp @gmail.com", false),
  (.search, txt "([^ @]+)@([^ @]+)", [], txt "...", false),
  (.search, txt "[^]", [], txt "", false),
  (.search, txt "^abc", [], txt " abcdefg", false),
  (.search, txt "abc$", [], txt "... abc ", false),
  (.search, txt " ^", [], txt "", false),
  (.search, txt "$ ", [], txt "", false)]

example : searchTests.all verdict = true := by decide +kernel

/-- test/regex_iteration_tests.cpp: `find_all` and `tokenize` (part 1) -/
def iterationTests1 : List (Method × List Byte × List RegexFlag × List Byte × Nat) := [
  (.search, txt "", [], txt "", 1),
  (.search, txt "", [], txt "a", 1),
  (.search, txt "a", [], txt "a", 1),
  (.search, txt "a", [], txt "", 0),
  (.search, txt "a", [], txt "a a a", 3),
  (.search, txt "a", [], txt "aaaaa", 5),
  (.search, txt "a", [], txt "b", 0),
  (.search, txt "a*", [], txt "", 1),
  (.search, txt "a*", [], txt "aa", 2),
  (.search, txt "a+", [], txt "", 0),
  (.search, txt "a+", [], txt "aa", 1),
  (.search, txt "a+", [], txt "a aa aaa", 3),
  (.search, txt "a+", [], txt "bbb ccc ddd", 0),
  (.search, txt "a+", [.ungreedy], txt "a aa aaa", 6),
  (.search, txt "a+?", [.ungreedy], txt "a aa aaa", 3),
  (.search, txt "a+(?:$|\\s)", [], txt "aaaa aaa aa a aa aaa aaaa", 7),
  (.search, txt "abc", [], txt "a", 0),
  (.search, txt "abc", [], txt "abcd abcd", 2),
  (.search, txt "^abc", [], txt "abcd abcd", 1),
  (.search, txt "abc$", [], txt "abcd abcd", 0),
  (.search, txt "abc$", [], txt "abcd abc", 1),
  (.search, txt "^abc$", [], txt "abcd abc", 0),
  (.search, txt "^abc$", [], txt "abc", 1),
  (.search, txt "$abc$", [], txt "abc", 0),
  (.search, txt "$", [], txt "abc def", 1),
  (.search, txt "^", [], txt "abcd abcd", 1),
  (.search, txt "a{3}", [], txt "a aa aaa aaaa a a aaaaaa", 4),
  (.search, txt "a{2,}b{1,2}", [], txt "aab ab aa bb aaaaaabb aaaaaab", 3),
  (.search, txt "\\s", [], txt "a b c d\te\rf\ng", 6),
  (.search, txt ".", [], txt "123456", 6),
  (.search, txt ".", [], txt "", 0),
  (.search, txt ".", [], txt "a", 1),
  (.search, txt ".+", [], txt "123456", 1),
  (.search, txt ".+", [.ungreedy], txt "123456", 6),
  (.search, txt ".+?", [.ungreedy], txt "123456", 1),
  (.matchPrefix, txt "", [], txt "", 1),
  (.matchPrefix, txt "", [], txt "a", 1),
  (.matchPrefix, txt "a", [], txt "a", 1),
  (.matchPrefix, txt "a", [], txt "", 0),
  (.matchPrefix, txt "a", [], txt "b", 0)]

example : iterationTests1.all elements = true := by decide +kernel

/-- test/regex_iteration_tests.cpp: `find_all` and `tokenize` (part 2) -/
def iterationTests2 : List (Method × List Byte × List RegexFlag × List Byte × Nat) := [
  (.matchPrefix, txt "a", [], txt "ababab", 1),
  (.matchPrefix, txt "a*", [], txt "", 1),
  (.matchPrefix, txt "a*", [], txt "aa", 2),
  (.matchPrefix, txt "a+", [], txt "", 0),
  (.matchPrefix, txt "a+", [], txt "aa", 1),
  (.matchPrefix, txt "a+", [], txt "a aa aaa", 1),
  (.matchPrefix, txt "[ab]", [], txt "ababab", 6),
  (.matchPrefix, txt "^[ab]", [], txt "ababab", 1),
  (.matchPrefix, txt "[ab]$", [], txt "ababab", 0),
  (.matchPrefix, txt "[a-z]|[0-9]{2}|\\s", [], txt "a11 b22 c33", 8),
  (.matchPrefix, txt "[a-z]|[0-9]{2}|\\s", [], txt "a11 b2_ c33", 4)]

example : iterationTests2.all elements = true := by decide +kernel

/-- test/iterator_api_tests.cpp: texts given by reverse iterators -/
def reverseTests : List (Method × List Byte × List RegexFlag × List Byte × Bool) := [
  (.match, txt "", [], (txt "").reverse, true),
  (.match, txt "a", [], (txt "a").reverse, true),
  (.match, txt "a?", [], (txt "").reverse, true),
  (.match, txt "a?", [], (txt "a").reverse, true),
  (.match, txt "ab", [], (txt "ba").reverse, true),
  (.match, txt "abc", [], (txt "cba").reverse, true),
  (.match, txt "olleh", [], (txt "hello").reverse, true),
  (.match, txt "\\w+(?<=olleh)", [], (txt "hello").reverse, true),
  (.match, txt "(?=olleh)\\w+", [], (txt "hello").reverse, true),
  (.match, txt "a{2}c{1,3}b{1}", [], (txt "bcccaa").reverse, true),
  (.match, txt "a{2}c{1,3}b{1}", [], (txt "bccaa").reverse, true),
  (.match, txt "a{2}c{1,3}b{1}", [], (txt "bcaa").reverse, true),
  (.match, txt "(.+)ab\\1", [], (txt "[xyz ]ba[xyz ]").reverse, true),
  (.match, txt "", [], (txt "a").reverse, false),
  (.match, txt "a", [], (txt "").reverse, false),
  (.match, txt "a?", [], (txt "aa").reverse, false),
  (.match, txt "ab", [], (txt "ab").reverse, false),
  (.match, txt "abc", [], (txt "abc").reverse, false),
  (.match, txt "a{2}c{1,3}b{1}", [], (txt "bccccaa").reverse, false),
  (.match, txt "a{2}c{1,3}b{1}", [], (txt "baa").reverse, false),
  (.match, txt "a{2}c{1,3}b{1}", [], (txt "bccca").reverse, false),
  (.match, txt "(.+)ab\\1", [], (txt "[ xyz]ba[xyz ]").reverse, false)]

example : reverseTests.all verdict = true := by decide +kernel

/-- `is_expected_match` of test/match_result_tests.cpp -/
def isExpectedMatch (s : List Byte) (res : Result) : Bool :=
  res.matched && res.length == 4 && (res.group 0).any (fun c => !c.isEmpty && c.content s == txt "test")

/-- `is_expected_non_match` of test/match_result_tests.cpp -/
def isExpectedNonMatch (res : Result) : Bool :=
  !res.matched && res.length == 0 && (res.group 0).any Cap.isEmpty

def testRegex : Regex := ⟨.seq [.lit (ch 't'), .lit (ch 'e'), .lit (ch 's'), .lit (ch 't')], []⟩

/-! test/match_result_tests.cpp -/
example : parse (txt "test") = .result testRegex.ast .success := rfl
example : testRegex.names.length = 1 := by decide +kernel
example : (testRegex.match (txt "test")).any (isExpectedMatch (txt "test")) = true := by decide +kernel
example : (testRegex.match (txt "xxx")).any isExpectedNonMatch = true := by decide +kernel
example : (testRegex.matchPrefix (txt "test___")).any (isExpectedMatch (txt "test___")) = true := by decide +kernel
example : (testRegex.matchPrefix (txt "_test")).any isExpectedNonMatch = true := by decide +kernel
example : (testRegex.search (txt "___test___")).any (isExpectedMatch (txt "___test___")) = true := by decide +kernel
example : (testRegex.search (txt "xxx")).any isExpectedNonMatch = true := by decide +kernel

end Mregex.Check
