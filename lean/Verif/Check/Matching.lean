import Verif.Check.Suite

/-!
# Tests of `match`

Checks of the model, not proofs of properties: the assertions of `test/regex_match_tests.cpp` in /repo evaluated in the model.
-/

namespace Mregex.Check
open Ast Spec

/-- test/regex_match_tests.cpp (part 1) -/
def matchTests1 : List (Method × List Byte × List RegexFlag × List Byte × Bool) := [
  (.match, txt "", [], txt "", true),
  (.match, txt "()", [], txt "", true),
  (.match, txt "a", [], txt "a", true),
  (.match, txt "abcd", [], txt "abcd", true),
  (.match, txt "\\a", [], txt "\u0007", true),
  (.match, txt "\\xf8", [], txt "\u00f8", true),
  (.match, txt "\\n", [], txt "\n", true),
  (.match, txt "\\N", [], txt "N", true),
  (.match, txt "\\R", [], txt "\r", true),
  (.match, txt "\\R", [], txt "\n", true),
  (.match, txt "\\btest", [], txt "test", true),
  (.match, txt "test\\b", [], txt "test", true),
  (.match, txt "\\btest\\b", [], txt "test", true),
  (.match, txt "\\w+ \\btest\\b", [], txt "another test", true),
  (.match, txt "\\B test", [], txt " test", true),
  (.match, txt "test \\B", [], txt "test ", true),
  (.match, txt "test\\Btest", [], txt "testtest", true),
  (.match, txt "test \\B test", [], txt "test  test", true),
  (.match, txt "^a", [], txt "a", true),
  (.match, txt "a$", [], txt "a", true),
  (.match, txt "^abcd$", [], txt "abcd", true),
  (.match, txt "abcdef", [], txt "abcdef", true),
  (.match, txt "^\\nabcd$\\n.+$", [.multiline], txt "\nabcd\nabc", true),
  (.match, txt "^abcd$\\n.+$\\n", [.multiline], txt "abcd\nabc\n", true),
  (.match, txt "^\\nabcd$\\n.+$\\n", [.multiline], txt "\nabcd\nabc\n", true),
  (.match, txt "^abcd$", [.multiline], txt "abcd", true),
  (.match, txt "^abcd$\\n", [.multiline], txt "abcd\n", true),
  (.match, txt "^\\nabcd$", [.multiline], txt "\nabcd", true),
  (.match, txt "\\n^abcd$\\n", [.multiline], txt "\nabcd\n", true),
  (.match, txt "\\A\\nabcd\\n\\Z", [.multiline], txt "\nabcd\n", true),
  (.match, txt "abc[]?def", [], txt "abcdef", true),
  (.match, txt "[a]", [], txt "a", true),
  (.match, txt "[a-z]+", [], txt "aqwertyz", true),
  (.match, txt "[A-Z]+", [], txt "AAABBBCCEEFFZZZ", true),
  (.match, txt "[0-9]+", [], txt "123123123123", true),
  (.match, txt "[a-zA-Z]+", [], txt "aBcDefghijklmnopqrstuvqXyZ", true),
  (.match, txt "[A-Z]+", [.icase], txt "aBcDefghijklmnopqrstuvqXyZ", true),
  (.match, txt "[0-Z]+", [.icase], txt "1234abczABCZ", true),
  (.match, txt "[123A-z-+]+", [.icase], txt "123-+abcdxyz[`]^ABCDXYZ", true),
  (.match, txt "[Y-b]+", [.icase], txt "[aAbByYzZ]", true)]

example : matchTests1.all verdict = true := by decide +kernel

/-- test/regex_match_tests.cpp (part 2) -/
def matchTests2 : List (Method × List Byte × List RegexFlag × List Byte × Bool) := [
  (.match, txt "[X-`]+", [.icase], txt "xXyYzZ[]", true),
  (.match, txt "[!-C]+", [.icase], txt "aAbBcC", true),
  (.match, txt "[\\^a]+", [], txt "^a", true),
  (.match, txt "[^]+", [], txt "aA01-^*@#(){}[]\n", true),
  (.match, txt "[^\\^a]+", [], txt "b$", true),
  (.match, txt "[(|)][^0-9]+[a-z]+", [], txt "(xy", true),
  (.match, txt "a?", [], txt "", true),
  (.match, txt "a?", [], txt "a", true),
  (.match, txt "a??", [], txt "a", true),
  (.match, txt "(?:a??)*b", [], txt "aaaaab", true),
  (.match, txt "a?+", [], txt "a", true),
  (.match, txt "a?+", [], txt "", true),
  (.match, txt "(?:a?+)?a", [], txt "a", true),
  (.match, txt "a?b?c?", [], txt "abc", true),
  (.match, txt "a?b?c?", [], txt "a", true),
  (.match, txt "a?b?c?", [], txt "b", true),
  (.match, txt "a?b?c?", [], txt "c", true),
  (.match, txt "a??b?c?", [], txt "ac", true),
  (.match, txt "a*", [], txt "", true),
  (.match, txt "a*", [], txt "a", true),
  (.match, txt "a*", [], txt "aa", true),
  (.match, txt "a*", [], txt "aaaaa", true),
  (.match, txt "a*a", [], txt "aaaaa", true),
  (.match, txt "a*+", [], txt "aaaaa", true),
  (.match, txt "a*", [.ungreedy], txt "", true),
  (.match, txt "a*a", [.ungreedy], txt "a", true),
  (.match, txt "a*a", [.ungreedy], txt "aa", true),
  (.match, txt "a*a", [.ungreedy], txt "aaaaa", true),
  (.match, txt ".+", [], txt "this regex will match any input!", true),
  (.match, txt ".+", [.dotall], txt "this regex will match any input!?", true),
  (.match, txt ".+", [.dotall], txt "\neven new lines!\r\n", true),
  (.match, txt "(a*)*", [], txt "", true),
  (.match, txt "(a*)*?", [], txt "", true),
  (.match, txt "(a*)*+", [], txt "", true),
  (.match, txt "(a*?)*", [], txt "", true),
  (.match, txt "(a*?)*?", [], txt "", true),
  (.match, txt "(a*?)*+", [], txt "", true),
  (.match, txt "(a*)*", [], txt "a", true),
  (.match, txt "(a*)*?", [], txt "a", true),
  (.match, txt "(a*)*+", [], txt "a", true)]

example : matchTests2.all verdict = true := by decide +kernel

/-- test/regex_match_tests.cpp (part 3) -/
def matchTests3 : List (Method × List Byte × List RegexFlag × List Byte × Bool) := [
  (.match, txt "(a*?)*", [], txt "a", true),
  (.match, txt "(a*?)*?", [], txt "a", true),
  (.match, txt "(a*)*", [], txt "aa", true),
  (.match, txt "(a*)*?", [], txt "aa", true),
  (.match, txt "(a*)*+", [], txt "aa", true),
  (.match, txt "(a*?)*", [], txt "aaaaa", true),
  (.match, txt "(a*?)*?", [], txt "aaaaa", true),
  (.match, txt "(a*aa)?aa", [], txt "aaaaa", true),
  (.match, txt "a+b+c+", [], txt "abc", true),
  (.match, txt "a+b+?c+", [], txt "aaabbcccccc", true),
  (.match, txt "a*aa", [], txt "aa", true),
  (.match, txt "a*aab+bb", [], txt "aaaaabbb", true),
  (.match, txt "(abc)+", [], txt "abcabcabc", true),
  (.match, txt "(x|y|z)+", [], txt "xyzxzyxyzxyzyxyxxxzxxzyxyzx", true),
  (.match, txt "a{1}", [], txt "a", true),
  (.match, txt "a\\{1}", [], txt "a{1}", true),
  (.match, txt "a{5}", [], txt "aaaaa", true),
  (.match, txt "a{0,5}", [], txt "aaaaa", true),
  (.match, txt "a{1,3}", [], txt "aaa", true),
  (.match, txt "a{3,3}", [], txt "aaa", true),
  (.match, txt "a{3,6}", [], txt "aaa", true),
  (.match, txt "a{3,6}a", [], txt "aaaa", true),
  (.match, txt "a{3,6}a", [], txt "aaaaaa", true),
  (.match, txt "a{3,6}a", [], txt "aaaaaaa", true),
  (.match, txt "a{1,5}?", [], txt "aaa", true),
  (.match, txt "(abc){0,}", [], txt "abcabc", true),
  (.match, txt "\\w{2}-\\w{3}-\\w{4}", [.unroll], txt "ab-abc-xyzt", true),
  (.match, txt "[a-z]{2}", [], txt "xy", true),
  (.match, txt "a{0}?", [.unroll], txt "", true),
  (.match, txt "(_x){7,17}y", [], txt "_x_x_x_x_x_x_xy", true),
  (.match, txt "(_x){7,17}y", [], txt "_x_x_x_x_x_x_x_xy", true),
  (.match, txt "(_x){7,17}+y", [], txt "_x_x_x_x_x_x_x_xy", true),
  (.match, txt "(_x){7,17}?y", [], txt "_x_x_x_x_x_x_x_xy", true),
  (.match, txt "(_x){7,17}y", [], txt "_x_x_x_x_x_x_x_x_x_x_x_x_x_x_x_xy", true),
  (.match, txt "(_x){7,17}y", [], txt "_x_x_x_x_x_x_x_x_x_x_x_x_x_x_x_x_xy", true),
  (.match, txt "(_x){7,17}+y", [], txt "_x_x_x_x_x_x_x_x_x_x_x_x_x_x_x_x_xy", true),
  (.match, txt "(_x){7,17}?y", [], txt "_x_x_x_x_x_x_x_x_x_x_x_x_x_x_x_x_xy", true),
  (.match, txt "(a?){4,5}", [], txt "aaa", true),
  (.match, txt "(a|bc){0,5}", [], txt "abcbcbc", true),
  (.match, txt "(a|bc){0,5}?", [], txt "abcbcbc", true)]

example : matchTests3.all verdict = true := by decide +kernel

/-- test/regex_match_tests.cpp (part 4) -/
def matchTests4 : List (Method × List Byte × List RegexFlag × List Byte × Bool) := [
  (.match, txt "(a|bc){0,5}+", [], txt "abcbcbc", true),
  (.match, txt "(a|b|c){3}", [], txt "abc", true),
  (.match, txt "(ab+){3}", [], txt "ababbbbbab", true),
  (.match, txt "^(a|b|ab){3}b$", [], txt "aabab", true),
  (.match, txt "^(a|b|ab){3}?b$", [], txt "aabab", true),
  (.match, txt "^(a|b|ab){3}+b$", [], txt "abab", true),
  (.match, txt "^(a|ab){3}b$", [], txt "aabab", true),
  (.match, txt "^(a|ab){3}?b$", [], txt "aabab", true),
  (.match, txt "^(a|ab){3}+b$", [], txt "aabab", true),
  (.match, txt "^(a|ab|aab){3}b$", [], txt "aabab", true),
  (.match, txt "^(a|ab|aab){3}?b$", [], txt "aabab", true),
  (.match, txt "^(a|ab|aab){3}+b$", [], txt "aabab", true),
  (.match, txt "^(a|ab|aab){3}b$", [.unroll], txt "aabaab", true),
  (.match, txt "^(a|ab|aab){3}?b$", [.unroll], txt "aabaab", true),
  (.match, txt "a|ab|abc", [], txt "a", true),
  (.match, txt "a|ab|abc", [], txt "ab", true),
  (.match, txt "a|ab|abc", [], txt "abc", true),
  (.match, txt "(a|ab)xd", [], txt "abxd", true),
  (.match, txt "(a|ab)+?x", [], txt "aaaababx", true),
  (.match, txt "(a|ab)+x", [], txt "aaaababx", true),
  (.match, txt "(a|ab|abc)+x", [], txt "abx", true),
  (.match, txt "(a|ab|abc)+x", [], txt "abcx", true),
  (.match, txt "(a|ab|abc)+x", [], txt "aabcaaabababcx", true),
  (.match, txt "(a|ab|abc){3}x", [.unroll], txt "aabcabx", true),
  (.match, txt "(a|ab|abc){3,}bc", [.unroll], txt "aabaabcabcabaaabc", true),
  (.match, txt "(ab?c??d){3}", [], txt "abcdacdad", true),
  (.match, txt "(a|ab|abc)+?x", [], txt "ax", true),
  (.match, txt "(?:ab|a)++b", [], txt "ababb", true),
  (.match, txt "(?:a|(?:))+", [], txt "", true),
  (.match, txt "hello|salut|bonjour", [.icase], txt "SaLuT", true),
  (.match, txt "([a-z]+):\\1", [], txt "abcd:abcd", true),
  (.match, txt "([a-z]+):\\1", [.icase], txt "abcd:abcd", true),
  (.match, txt "([a-z]+):\\1", [.icase], txt "aBCd:AbCd", true),
  (.match, txt ".*(.).*\\1", [], txt "abcdefd", true),
  (.match, txt ".*(.).*\\1", [.ungreedy], txt "abcdefd", true),
  (.match, txt "(.)(?:(x)|y)\\1", [], txt "aya", true),
  (.match, txt "(.)(\\w)([a-z])\\3\\2\\1", [], txt "abccba", true),
  (.match, txt "(abc)+|tu ?(xyz)+", [], txt "abcabcabc", true),
  (.match, txt "(abc)+|tu ?(xyz)+", [], txt "tuxyz", true),
  (.match, txt "(abc)+|tu ?(xyz ?)+", [], txt "tuxyzxyz", true)]

example : matchTests4.all verdict = true := by decide +kernel

/-- test/regex_match_tests.cpp (part 5) -/
def matchTests5 : List (Method × List Byte × List RegexFlag × List Byte × Bool) := [
  (.match, txt "(abc)+|tu ?(xyz ?)+", [], txt "tuxyz xyz", true),
  (.match, txt "(abc)+|tu ?(xyz ?)+", [], txt "tu xyz xyz ", true),
  (.match, txt "\\w+(\\.\\w+)?@\\w+?(\\.\\w+)?", [], txt "example@gmail.com", true),
  (.match, txt "\\w+?(\\.\\w+)?@\\w+(\\.\\w+)?", [], txt "example.test@gmail.com", true),
  (.match, txt "\\w+(\\.\\w+)?@\\w+(\\.\\w+)?", [], txt "cpp@regex", true),
  (.match, txt "\\w+(\\.\\w+)?@\\w+(\\.\\w+?)?", [], txt "abc123_321bca@gmail.com", true),
  (.match, txt "0(x|X)([\\da-fA-F]+?)(h|H)?", [], txt "0x1234F", true),
  (.match, txt "(x{2,})\\1+", [], txt "xxxxxxxxx", true),
  (.match, txt "(a*(x|axx))e", [], txt "aaaxxe", true),
  (.match, txt "0(x)([\\da-f]+?)(h)?", [.icase], txt "0X0h", true),
  (.match, txt "a{}", [], txt "a{}", true),
  (.match, txt "a{x}", [], txt "a{x}", true),
  (.match, txt "\\(.+\\)", [], txt "(aaabb)", true),
  (.match, txt "\\(\\.+\\)", [], txt "(...)", true),
  (.match, txt "(?=)", [], txt "", true),
  (.match, txt "a(?=b)\\w", [], txt "ab", true),
  (.match, txt ".(?!b).{2}", [], txt "xxx", true),
  (.match, txt "a(?=(\\w))\\w\\1", [], txt "abb", true),
  (.match, txt "..(?<=x)a", [], txt "_xa", true),
  (.match, txt "..(?<=xy)a", [], txt "xya", true),
  (.match, txt ".{9}(?<=ab{2,4}c{3,5}d)test", [], txt "abbbccccdtest", true),
  (.match, txt ".{7}?(?<=ab{2,4}c{3,5}d)test", [], txt "abbcccdtest", true),
  (.match, txt ".{12}(?<!ab{2,4}?c{3,5}d)test", [], txt "abbbbbcccccdtest", true),
  (.match, txt ".{10}(?<!ab{2,4}c{3,5}?d)test", [], txt "abbbbccccctest", true),
  (.match, txt ".(?<!a(?!t)).{2,}?st", [.ungreedy], txt "atest", true),
  (.match, txt ".(?<=a(?=t)).{2,}st", [.ungreedy], txt "atest", true),
  (.match, txt "(?<!\\\\)\\\\(?!\\w+).?", [], txt "\\", true),
  (.match, txt "(?<!\\\\)\\\\(?!\\w+).", [], txt "\\?", true),
  (.match, txt "(?<!\\\\)\\\\(?!\\w+).", [], txt "\\%", true),
  (.match, txt "(.*)(?<=\\1)", [], txt "abc", true),
  (.match, txt "abc(?<=(abc))", [], txt "abc", true),
  (.match, txt ".{3}(?<=(.{3}?))\\1", [], txt "abcabc", true),
  (.match, txt "(.*?)x(?<=\\1x)", [], txt "abcx", true),
  (.match, txt "(?:(?<grp_name>x)x|xy)\\k<grp_name>", [], txt "xy", true),
  (.match, txt "(?:(?<grp_name>x)x|xy)\\k<grp_name>", [], txt "xxx", true),
  (.match, txt "(?<name>a+|b+?)x\\k<name>", [], txt "aaaxaaa", true),
  (.match, txt ".*(?<blah>.).*\\1", [], txt "abcdefd", true),
  (.match, txt ".*(?<blah>.).*\\k<blah>", [.ungreedy], txt "abcdefd", true),
  (.match, txt "(?<duplicate>.)(?<duplicate>.)\\1\\2", [], txt "abab", true),
  (.match, txt "(?>ab|a)x", [], txt "abx", true)]

example : matchTests5.all verdict = true := by decide +kernel

/-- test/regex_match_tests.cpp (part 6) -/
def matchTests6 : List (Method × List Byte × List RegexFlag × List Byte × Bool) := [
  (.match, txt "(?>a+?)a", [], txt "aa", true),
  (.match, txt ".*(?>.{1,2})x", [], txt "aax", true),
  (.match, txt ".*(?>.{1,}?)x", [], txt "aaaax", true),
  (.match, txt "(?>.{1,}?)x", [], txt "ax", true),
  (.match, txt "^(?>(?:ab.?){2,})x", [], txt "abcabcabcx", true),
  (.match, txt "^(?>(?:ab.?){2,})x", [], txt "ababcx", true),
  (.match, txt "(?>integer|insert|in)", [], txt "integer", true),
  (.match, txt "(?>integer|insert|in)", [], txt "insert", true),
  (.match, txt "(?>integer|insert|in)", [], txt "in", true),
  (.match, txt "(?>in|insert|integer)", [], txt "in", true),
  (.match, txt "", [], txt "x", false),
  (.match, txt "()", [], txt ".", false),
  (.match, txt "a", [], txt "b", false),
  (.match, txt "abc", [], txt "cba", false),
  (.match, txt "\\a", [], txt "1", false),
  (.match, txt "\\xf8", [], txt "\u00f9", false),
  (.match, txt "\\n", [], txt "n", false),
  (.match, txt "\\N", [], txt "\r", false),
  (.match, txt "\\N", [], txt "\n", false),
  (.match, txt "\\b test", [], txt " test", false),
  (.match, txt "test \\b", [], txt "test ", false),
  (.match, txt "\\b@test@\\b", [], txt "@test@", false),
  (.match, txt "x\\btest", [], txt "xtest", false),
  (.match, txt "test\\bx", [], txt "testx", false),
  (.match, txt "\\Btest", [], txt "test", false),
  (.match, txt "test\\B", [], txt "test", false),
  (.match, txt "test \\Btest", [], txt "test test", false),
  (.match, txt "test\\B test", [], txt "test test", false),
  (.match, txt "^a", [], txt " a", false),
  (.match, txt "a$", [], txt "a ", false),
  (.match, txt "^abcd$", [], txt " abcd", false),
  (.match, txt "^abcd$", [.multiline], txt "\nabcd\n\n", false),
  (.match, txt "^abcd$.+$", [.multiline], txt "\n\nabcd\n", false),
  (.match, txt "^\\nabcd$\\n", [.multiline], txt "\nabcd\ne", false),
  (.match, txt "^abcd$\\n", [.multiline], txt "a\nbcd\n", false),
  (.match, txt "abcd\\Z\\nabcd", [.multiline], txt "abcd\nabcd", false),
  (.match, txt "[]", [], txt "a", false),
  (.match, txt "[]", [], txt "", false),
  (.match, txt "[\\^a]+", [], txt "^ca", false),
  (.match, txt "[^a]", [], txt "a", false)]

example : matchTests6.all verdict = true := by decide +kernel

/-- test/regex_match_tests.cpp (part 7) -/
def matchTests7 : List (Method × List Byte × List RegexFlag × List Byte × Bool) := [
  (.match, txt "[^\\^a]+", [], txt "bb^$", false),
  (.match, txt "[a-z]+", [], txt "abasbdbAasdbasbdabs", false),
  (.match, txt "[A-Z]+", [], txt "AAAAVVVVVVVVCCCCCCxCD", false),
  (.match, txt "[0-9]+", [], txt "123123f123123", false),
  (.match, txt "[0-3]+", [], txt "1231243123123", false),
  (.match, txt "[Y-b]", [.icase], txt "~", false),
  (.match, txt "[Y-b]", [.icase], txt "x", false),
  (.match, txt "[Y-b]", [.icase], txt "X", false),
  (.match, txt "[Y-b]", [.icase], txt "c", false),
  (.match, txt "[Y-b]", [.icase], txt "C", false),
  (.match, txt "[Y-b]", [.icase], txt "{", false),
  (.match, txt "[Y-b]", [.icase], txt ";", false),
  (.match, txt "[!-C]", [.icase], txt "d", false),
  (.match, txt "[!-C]", [.icase], txt "D", false),
  (.match, txt "[X-`]", [.icase], txt "w", false),
  (.match, txt "[X-`]", [.icase], txt "W", false),
  (.match, txt "abc[]def", [], txt "abcdef", false),
  (.match, txt "abcdef[^x]", [], txt "abcdef", false),
  (.match, txt "[(|)][^0-9]+[a-z]+", [], txt "(x", false),
  (.match, txt "a?+a", [], txt "a", false),
  (.match, txt "a??", [], txt "b", false),
  (.match, txt "a?", [], txt "ab", false),
  (.match, txt "a+", [], txt "", false),
  (.match, txt ".+", [.dotall], txt "", false),
  (.match, txt ".+x", [.dotall], txt "xy", false),
  (.match, txt "[^a-z]+", [.icase], txt "AABBBDBDBDBBSABBDBDBABBA", false),
  (.match, txt "a*", [], txt "aaaaaaaaabaaaa", false),
  (.match, txt "a*aa", [], txt "a", false),
  (.match, txt "a*aab+?bb", [], txt "aaabb", false),
  (.match, txt "a*+a", [], txt "aaaaaaaaaaa", false),
  (.match, txt "(a*)*", [], txt "aaaab", false),
  (.match, txt "(a*?)*+", [], txt "a", false),
  (.match, txt "(a*?)?+", [], txt "a", false),
  (.match, txt "a++a", [], txt "aaaaaaaaaaa", false),
  (.match, txt "(a++)+aa", [], txt "aaaaa", false),
  (.match, txt "(a*)+", [], txt "aaab", false),
  (.match, txt "(a+)*", [], txt "aaab", false),
  (.match, txt "(a+)+", [], txt "aaab", false),
  (.match, txt "(a+)+?", [], txt "aaab", false),
  (.match, txt "(a+?)+", [], txt "", false)]

example : matchTests7.all verdict = true := by decide +kernel

/-- test/regex_match_tests.cpp (part 8) -/
def matchTests8 : List (Method × List Byte × List RegexFlag × List Byte × Bool) := [
  (.match, txt "a?b?c?", [], txt "abbc", false),
  (.match, txt "a+b+c+", [], txt "ab", false),
  (.match, txt "(abc)+", [], txt "abcabcbc", false),
  (.match, txt "a.+?", [], txt "this regex will match any input", false),
  (.match, txt ".+", [], txt "\nexcept new lines", false),
  (.match, txt "a?   b?? c?", [], txt "abc", false),
  (.match, txt "a{3,10}+a", [], txt "aaaaa", false),
  (.match, txt "a{1}", [], txt "a{1}", false),
  (.match, txt "a{1}", [], txt "aa", false),
  (.match, txt "a{1}", [], txt "b", false),
  (.match, txt "a{1}", [], txt "", false),
  (.match, txt "a{5}", [], txt "aaaba", false),
  (.match, txt "a{5}", [], txt "aaaaaa", false),
  (.match, txt "a{5}", [], txt "aaaa", false),
  (.match, txt "a{5}", [], txt "aaaaa", true),
  (.match, txt "a{0,5}", [], txt "aaaaaa", false),
  (.match, txt "a{2,3}?", [], txt "a", false),
  (.match, txt "a{3,3}", [], txt "aa", false),
  (.match, txt "a{3,6}", [], txt "aaaaaaa", false),
  (.match, txt "a{1,5}", [], txt "", false),
  (.match, txt "(_x){7,17}", [], txt "_x_x_x_x_x", false),
  (.match, txt "(_x){7,17}", [], txt "_x_x_x_x_x_x_", false),
  (.match, txt "(_x){7,17}?", [], txt "_x_x_x_x_x_x_x_x_x_xx_x_x_x_x_x_x", false),
  (.match, txt "(_x){7,17}", [], txt "_x_x_x_x_x_x_x_x_x_x_x_x_x_x_x_x_x_", false),
  (.match, txt "(_x){7,17}?", [], txt "_x_x_x_x_x_x_x_x_x_x_x_x_x_x_x_x_x_x", false),
  (.match, txt "(_x){7,17}+", [], txt "_x_x_x_x_x_x_x_x_x_x_x_x_x_x_x_x_x_x", false),
  (.match, txt "(abc){0,5}", [], txt "acabc", false),
  (.match, txt "(a|bc){0,5}", [], txt "abcbcbcbcaa", false),
  (.match, txt "(ab+){1,3}", [], txt "ababbbbbabab", false),
  (.match, txt "(abc){1,}", [], txt "", false),
  (.match, txt "(abc){0,}", [], txt "abcabcabcabbabc", false),
  (.match, txt "[a-z]{2}", [], txt "0y", false),
  (.match, txt "a{0}", [], txt "a", false),
  (.match, txt "(a|b|c){3}", [], txt "abc", true),
  (.match, txt "(a|b|c)+", [], txt "abcxabc", false),
  (.match, txt "(a|ab)*x", [], txt "aaaabbabx", false),
  (.match, txt "(a|ab)+?x", [], txt "aaaabcabx", false),
  (.match, txt "^(a|ab){3}+b$", [], txt "abababb", false),
  (.match, txt "^(a|ab){3}+$", [], txt "aabab", false),
  (.match, txt "^(a|ab|aab){3}+b$", [], txt "aabaab", false)]

example : matchTests8.all verdict = true := by decide +kernel

/-- test/regex_match_tests.cpp (part 9) -/
def matchTests9 : List (Method × List Byte × List RegexFlag × List Byte × Bool) := [
  (.match, txt "^(a|b|ab){3}+b$", [], txt "aabab", false),
  (.match, txt "(?:ab|a)++b", [], txt "abab", false),
  (.match, txt "(?:a|ab)++", [], txt "aaab", false),
  (.match, txt "a|ab|abc", [], txt "", false),
  (.match, txt "a|ab|abc", [], txt "a|ab|abc", false),
  (.match, txt "a|ab|abc", [], txt "aba", false),
  (.match, txt "(a|ab|abc)+", [], txt "abcx", false),
  (.match, txt "(a|ab|abc)+x", [], txt "ab", false),
  (.match, txt "(a|ab|abc)+x", [], txt "x", false),
  (.match, txt "(a|ab|abc){2}x", [], txt "aabcabx", false),
  (.match, txt "(a|ab|abc){4}x", [], txt "aabcabx", false),
  (.match, txt "(a|ab|abc){0,5}bc", [], txt "aabaabcababc", false),
  (.match, txt "(a+|b+)x\\1", [], txt "aaaxbbb", false),
  (.match, txt ".*(.).*\\1", [], txt "abcdef", false),
  (.match, txt "(abc)+|tu ?(xyz)+", [], txt "xyz", false),
  (.match, txt "(abc)+|tu ?(xyz ?)+", [], txt "tuxyxyz", false),
  (.match, txt "(abc)+|tu ?(xyz ?)+", [], txt "tu xyz  xyz ", false),
  (.match, txt "\\w+(\\.\\w+)?@\\w+(\\.\\w+)?", [], txt "exa.mp.le@gmail.com", false),
  (.match, txt "\\w+(\\.\\w+)?@\\w+(\\.\\w+)?", [], txt "example.test@gm.ail.com", false),
  (.match, txt "\\w+(\\.\\w+)?@\\w+(\\.\\w+)?", [], txt "cpp..@regex", false),
  (.match, txt "\\w+(\\.\\w+)?@\\w+(\\.\\w+)?", [], txt "abc123_321bca.gmail.com", false),
  (.match, txt "(x{2,})\\1+", [], txt "xxxxxxx", false),
  (.match, txt "!", [.icase], txt "A", false),
  (.match, txt "(?!)", [], txt "", false),
  (.match, txt "(?!)", [], txt "a", false),
  (.match, txt "a(?=b)", [], txt "ab", false),
  (.match, txt ".(?!b).{2}", [], txt "xbx", false),
  (.match, txt "a(?!b)|cb", [], txt "ab", false),
  (.match, txt "..(?<=x)a", [], txt "__a", false),
  (.match, txt "..(?<=xy)a", [], txt "yxa", false),
  (.match, txt "..(?<=xy)a", [], txt "yya", false),
  (.match, txt ".(?<!\\\\)\\\\(?!\\w+)", [], txt "\\\\", false),
  (.match, txt "(?<!\\\\)\\\\(?!\\w+?).", [], txt "\\a", false),
  (.match, txt ".{7}(?<=ab{2,4}c{3,5}d)test", [], txt "abccccdtest", false),
  (.match, txt ".{7}(?<=ab{2,4}c{3,5}d)test", [], txt "abbcccdtes", false),
  (.match, txt ".{7}(?<!ab{2,4}c{3,5}d)test", [], txt "abbcccdtest", false),
  (.match, txt ".{2}(?<!a(?=t))test", [], txt "atest", false),
  (.match, txt "(.*)(?<!\\1)", [], txt "abc", false),
  (.match, txt "(.*?)x(?<!\\1x)", [], txt "abcx", false),
  (.match, txt "(?<grp1>x{2,})\\k<grp1>+", [], txt "xxxxxxxxxxx", false)]

example : matchTests9.all verdict = true := by decide +kernel

/-- test/regex_match_tests.cpp (part 10) -/
def matchTests10 : List (Method × List Byte × List RegexFlag × List Byte × Bool) := [
  (.match, txt "(?<name1>a+|b+)x\\k<name1>", [], txt "aaaxbbb", false),
  (.match, txt ".*(?<test_name>.).*\\k<test_name>", [], txt "abcdef", false),
  (.match, txt "(?>a|ab)x", [], txt "abx", false),
  (.match, txt "(?>a+)a", [], txt "aa", false),
  (.match, txt ".*(?>.{1,2})x", [], txt "ax", false),
  (.match, txt ".*(?>.{1,})x", [], txt "aaaax", false),
  (.match, txt "(?>.{1,}?)x", [], txt "aaaax", false),
  (.match, txt "^(?>(?:ab.?){2,})x", [], txt "abcabcababcx", false),
  (.match, txt "(?>in|insert|integer)", [], txt "integer", false),
  (.match, txt "(?>in|insert|integer)", [], txt "insert", false)]

example : matchTests10.all verdict = true := by decide +kernel

end Mregex.Check
