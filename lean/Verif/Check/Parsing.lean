import Verif.Check.Suite

/-!
# Tests of the parser

Checks of the model, not proofs of properties: the assertions of `test/parser_accept_tests.cpp`, `test/parser_error_tests.cpp`, `test/parser_ast_tests.cpp` in /repo evaluated in the model.
-/

namespace Mregex.Check
open Ast Spec

/-- test/parser_accept_tests.cpp (part 1) -/
def acceptTests1 : List (List Byte × Bool) := [
  (txt "", true),
  (txt "()", true),
  (txt "a", true),
  (txt "abcd", true),
  (txt "(^)?", true),
  (txt "($)?", true),
  (txt "(^$)*?", true),
  (txt "\\b", true),
  (txt "\\B", true),
  (txt "(\\b)+", true),
  (txt "(\\B)?+", true),
  (txt "(\\b)+?", true),
  (txt "\\\\", true),
  (txt "\\n", true),
  (txt "\\N", true),
  (txt "\\a", true),
  (txt "\\\\a", true),
  (txt "\\\\D", true),
  (txt "\\x00", true),
  (txt "\\x0a", true),
  (txt "\\x0af", true),
  (txt "\\x00_", true),
  (txt "\\x0a?+", true),
  (txt "\\x0a+", true),
  (txt "\\x0a{1,2}+", true),
  (txt "\\x0ab{1,2}+", true),
  (txt "\\b\\{x1}", true),
  (txt "\\B\\{+}?", true),
  (txt "\\A\\{??", true),
  (txt "\\Z\\{ x{3}?x{13,}+", true),
  (txt "(\\(+)*", true),
  (txt "(\\++?)*", true),
  (txt "(\\?+)?", true),
  (txt "(\\?+?)?", true),
  (txt "(\\|+\\))?", true),
  (txt "x\\*\\(x\\?(abc\\+(?:xyz)\\?)\\+x\\)\\*x", true),
  (txt "c?", true),
  (txt "c*", true),
  (txt "c+", true),
  (txt "c??", true)]

example : acceptTests1.all acceptance = true := by decide +kernel

/-- test/parser_accept_tests.cpp (part 2) -/
def acceptTests2 : List (List Byte × Bool) := [
  (txt "c*?", true),
  (txt "c+?", true),
  (txt "c?+", true),
  (txt "c*+", true),
  (txt "c++", true),
  (txt "^c+", true),
  (txt "^c+$", true),
  (txt "c{2}", true),
  (txt "c{2}?", true),
  (txt "c{2}+", true),
  (txt "c{,0}", true),
  (txt "c{,0}?", true),
  (txt "c{0}", true),
  (txt "c{123}", true),
  (txt "c{1,23}", true),
  (txt "c{12,}", true),
  (txt "c{0,123}", true),
  (txt "c{0,123}?", true),
  (txt "c{1,2}", true),
  (txt "c{}", true),
  (txt "\\{}", true),
  (txt "\\{1x}", true),
  (txt "\\{123}x", true),
  (txt "\\{123,124}x", true),
  (txt "c{}?", true),
  (txt "c{", true),
  (txt "c{?", true),
  (txt "c{?}", true),
  (txt "c{?}?", true),
  (txt "c{?}+", true),
  (txt "c{*}", true),
  (txt "c{+}", true),
  (txt "c{|}", true),
  (txt "c{x}", true),
  (txt "c{,}", true),
  (txt "c{ 0, 123}", true),
  (txt "c\\{123}", true),
  (txt "c\\{", true),
  (txt "c*+\\{", true),
  (txt "one|two", true)]

example : acceptTests2.all acceptance = true := by decide +kernel

/-- test/parser_accept_tests.cpp (part 3) -/
def acceptTests3 : List (List Byte × Bool) := [
  (txt "(one|two)?", true),
  (txt "(one|two)*", true),
  (txt "(one|two)+", true),
  (txt "one+|two", true),
  (txt "(one|two?)?", true),
  (txt "(one*|two)*", true),
  (txt "(one|two|three?)?", true),
  (txt "(one+|two|three)*", true),
  (txt "(one|two+|three)+", true),
  (txt "(c)", true),
  (txt "(c)\\1", true),
  (txt "x(?:x)", true),
  (txt "(?:x)x", true),
  (txt "(?:x)?", true),
  (txt "(?:x)+", true),
  (txt "(?:)", true),
  (txt "(?:abc())", true),
  (txt "(?:)+", true),
  (txt "x+(?:x)?y*", true),
  (txt "(?:ab|cd)?", true),
  (txt "(?:abcd)|xy", true),
  (txt "(?:ab|cd)|xy", true),
  (txt "(?:(abc){4})", true),
  (txt "(?:(?:abc))", true),
  (txt "12(ab(?:cd)ef)\\1gh", true),
  (txt "(?:(((?:abd))+)x?)|(?:xyz)+", true),
  (txt "x*(x?(abc+(?:xyz)?)+x)*x", true),
  (txt "x*(x?(abc+(?:xyz)?)+x)*x\\1+\\2?", true),
  (txt "x*?(x?(abc+?(?:xyz)?)+x)*x\\1+?\\2??", true),
  (txt "x*+(x?(abc+?(?:xyz)?)+x)*x\\1++\\2?+", true),
  (txt "(?>)", true),
  (txt "(?>c)", true),
  (txt "(?>c)+", true),
  (txt "(?>(:>((?>(?:(?>())))(?>c))((?:(?>(?>(?>c))((?>c)))(?>)(?:(?>)(?:))))))", true),
  (txt "(?>ab{2,3}c?)+", true),
  (txt "(?>ab|c)|(?>[xyz])", true),
  (txt "(?>(..){2,3}(?>[ab]{3}c?)\\s+)*?", true),
  (txt "[a]", true),
  (txt "[]", true),
  (txt "[\\b]", true)]

example : acceptTests3.all acceptance = true := by decide +kernel

/-- test/parser_accept_tests.cpp (part 4) -/
def acceptTests4 : List (List Byte × Bool) := [
  (txt "[\\1]", true),
  (txt "[\\0]", true),
  (txt "[\\k]", true),
  (txt "[\\k<test>]", true),
  (txt "[(]", true),
  (txt "[a][b]", true),
  (txt "[-a]", true),
  (txt "[a-z]", true),
  (txt "[\\w-a]", true),
  (txt "[\\l-\\u]", true),
  (txt "[A-\\\\w]", true),
  (txt "[A-\\\\D]", true),
  (txt "[A-\\\\x]", true),
  (txt "[^a]", true),
  (txt "[^-a]", true),
  (txt "[^a-]", true),
  (txt "[^]", true),
  (txt "[^a-z]", true),
  (txt "^[a]$", true),
  (txt "^[^a-z]$", true),
  (txt "[^-a-z]", true),
  (txt "[\\0-\\n]", true),
  (txt "[a-\\xf9]", true),
  (txt "f?[a-zA-Z]?a?", true),
  (txt "f?[a-z-]?a?", true),
  (txt "f?[a-z-A]?a?", true),
  (txt "f?[a-zA-]?a?", true),
  (txt "f??[a-z-A]??a?", true),
  (txt "f?+[a-z-A]*+a?", true),
  (txt "f*[a-zA-Z]*a?", true),
  (txt "f+[a-zA-Z]+a+", true),
  (txt "f?[a-zA-Z]?a?[xyzt\\w0-9]+d?", true),
  (txt "]", true),
  (txt "[]]", true),
  (txt "[a]{12}[]", true),
  (txt "[][b]", true),
  (txt "[]-z]", true),
  (txt "[- -[]", true),
  (txt "ab|cd|[a-zA-Z]|ab{3}|ac", true),
  (txt "ab|(cd|[a-zA-Z]|ab)|ac", true)]

example : acceptTests4.all acceptance = true := by decide +kernel

/-- test/parser_accept_tests.cpp (part 5) -/
def acceptTests5 : List (List Byte × Bool) := [
  (txt "^(ab|(cd|[a-zA-Z]|ab)|ac)$", true),
  (txt "((a|\\\\a)|(d|\\\\d))?", true),
  (txt "((a|\\\\a+)|(d?|\\\\d))*", true),
  (txt "((a|\\\\a)|(0|1|2|3))?", true),
  (txt "(((a|\\\\a)|(0|1|2|3))?)*x?y+abcd|efgh((x|z)?t)+", true),
  (txt "xyz(?=a)abc", true),
  (txt "xyz(?!a)abc", true),
  (txt "xyz(?=)abc", true),
  (txt "xyz(?!)abc", true),
  (txt "xyz(?<=abc)abc", true),
  (txt "xyz(?<!abc)abc", true),
  (txt "xyz(?<=a)abc", true),
  (txt "xyz(?<!a)abc", true),
  (txt "xyz(?<=)abc", true),
  (txt "xyz(?<!)abc", true),
  (txt "abc(?<test>.[a-d]+)*cd", true),
  (txt "abc(?<te2_3>.[a-d]+)+cd", true),
  (txt "abc(?<lvl1>.[a-d]+(?<lvl2>x+y*))+cd", true),
  (txt "abc(?<____>.[a-d]+(?<_1232>x+y*)+){2,3}cd", true),
  (txt "abc(?<____>.[a-d]+(?<_1232>x+y*)+){2,3}cd\\k<_1232>+", true),
  (txt "abc(?<____>.[a-d]+(?<_1232>\\k<____>{2}x+y*)+){2,3}cd", true),
  (txt "(?<foo>.)\\k<foo>\\1", true),
  (txt "(?<foo>.+?)\\k<foo>*?\\1", true),
  (txt "(", false),
  (txt ")", false),
  (txt "+", false),
  (txt "?", false),
  (txt "*", false),
  (txt "|", false),
  (txt "\\", false),
  (txt "a|", false),
  (txt "|a", false),
  (txt "a|)", false),
  (txt "^?", false),
  (txt "^?", false),
  (txt "$?", false),
  (txt "^$+", false),
  (txt "^$*", false),
  (txt "^$*?", false),
  (txt "^*$?", false)]

example : acceptTests5.all acceptance = true := by decide +kernel

/-- test/parser_accept_tests.cpp (part 6) -/
def acceptTests6 : List (List Byte × Bool) := [
  (txt "^?$??", false),
  (txt "\\b+", false),
  (txt "\\b?", false),
  (txt "\\B?+", false),
  (txt "\\b+?", false),
  (txt "\\b{**", false),
  (txt "\\b{*++", false),
  (txt "\\b{??+", false),
  (txt "{", false),
  (txt "{x}", false),
  (txt "{1}", false),
  (txt "c+{x", false),
  (txt "c+{3}", false),
  (txt "c{2x}", false),
  (txt "c{123", false),
  (txt "c{123\\}", false),
  (txt "c{1,2,3}", false),
  (txt "c{12,3", false),
  (txt "c{0,123,}", false),
  (txt "c{0, 123}", false),
  (txt "c{0,123 }", false),
  (txt "c{1\\,2}", false),
  (txt "(|)", false),
  (txt "(+)", false),
  (txt "(?)", false),
  (txt "(*)", false),
  (txt "(()", false),
  (txt "())", false),
  (txt "(|a)", false),
  (txt "(a{|)", false),
  (txt "(+|-)", false),
  (txt "x(?)", false),
  (txt "(?:xx", false),
  (txt "?:x)?", false),
  (txt "x+(?:?)*", false),
  (txt "(?:|x)", false),
  (txt "(?:a)|", false),
  (txt "|(?:ab)", false),
  (txt "(?x)", false),
  (txt "(?:abc", false)]

example : acceptTests6.all acceptance = true := by decide +kernel

/-- test/parser_accept_tests.cpp (part 7) -/
def acceptTests7 : List (List Byte × Bool) := [
  (txt "xy?((?:abc)zt\\)?", false),
  (txt "(Inner|a)+)", false),
  (txt "\\((Inner|a)+)", false),
  (txt "((((((a)))))", false),
  (txt "((((((a)))))\\)", false),
  (txt "((a|\\\\a)|\\(d|\\\\d))?", false),
  (txt "((a|\\\\a+*)|(d?|\\\\d))*", false),
  (txt "((a|\\\\a)|(0|1|?2|3))?", false),
  (txt "(((|\\\\a)|(0|1|2|3))?)*x?y+abcd|efgh((x|z)?t)+", false),
  (txt "(?>c", false),
  (txt "(?>c))", false),
  (txt "(?>c)|", false),
  (txt "(?>c|)", false),
  (txt "(?>|)", false),
  (txt "(?>+)", false),
  (txt "(?>{3,2})", false),
  (txt "[\\]", false),
  (txt "[\\", false),
  (txt "[][", false),
  (txt "[a-\\d]", false),
  (txt "[a-\\w]", false),
  (txt "[a-\\D]", false),
  (txt "[a-\\W]", false),
  (txt "[a-\\N]", false),
  (txt "[a-\\R]", false),
  (txt "[a-\\x]", false),
  (txt "[", false),
  (txt "[a][", false),
  (txt "?[a-zA-Z]?a?", false),
  (txt "ab||[a-zA-Z]", false),
  (txt "ab|(cd|[a-zA-Z]|", false),
  (txt "f?[a-z-A]?+*", false),
  (txt "f*[a-zA-Z*a?", false),
  (txt "f**[a-zA-Z]", false),
  (txt "+[a-zA-Z]+a+", false),
  (txt "ab|cd|[a-zA-Z]|ab{3|ac", false),
  (txt "ab|(cd|[a-zA-Z]|ab\\)|ac", false),
  (txt "^(ab||(cd|[a-zA-Z]|ab)|ac)$", false),
  (txt "xyz(?<abc)abc", false),
  (txt "xyz(?<)abc", false)]

example : acceptTests7.all acceptance = true := by decide +kernel

/-- test/parser_accept_tests.cpp (part 8) -/
def acceptTests8 : List (List Byte × Bool) := [
  (txt "xyz(?<a)abc", false),
  (txt "xyz(?<<a)abc", false),
  (txt "(?<>xyz)", false),
  (txt "(?<1name>xyz)", false),
  (txt "(?<namexyz)", false),
  (txt "(?<name >xyz)", false),
  (txt "(?< name>xyz)", false),
  (txt "(?<+name>xyz)", false),
  (txt "\\k", false),
  (txt "\\k<", false),
  (txt "\\k<>", false),
  (txt "\\k<+name>", false),
  (txt "\\k<name", false),
  (txt "\\k<name >", false),
  (txt "\\kname>", false),
  (txt "\\k<1name>", false),
  (txt "\\k<name>**", false)]

example : acceptTests8.all acceptance = true := by decide +kernel

/-- test/parser_error_tests.cpp -/
def errorTests : List (List Byte × Nat) := [
  (txt "(", 1),
  (txt ")", 0),
  (txt "[", 1),
  (txt "+", 0),
  (txt "|", 0),
  (txt "?", 0),
  (txt "a)", 1),
  (txt "a?*", 2),
  (txt "(?a)", 2),
  (txt "(?<*)", 3),
  (txt "ab|+cd", 3),
  (txt "((ab)", 5),
  (txt "(?xx)", 2),
  (txt "a{3x}", 3),
  (txt "a{34,x}", 5),
  (txt "a{3,", 4),
  (txt "a{1,2,3}", 5),
  (txt "a**b", 2),
  (txt "\\x", 2),
  (txt "\\x0", 3),
  (txt "\\x0x", 3),
  (txt "(a(b(c(d)))))", 12),
  (txt "(?<1name>x)", 3),
  (txt "(?<name+>x)", 7),
  (txt "(?<namex)", 8),
  (txt "\\k<", 3),
  (txt "\\k<name", 7),
  (txt "\\kname>", 2)]

example : errorTests.all errorAt = true := by decide +kernel

/-- test/parser_ast_tests.cpp (part 1) -/
def astTests1 : List (List Byte × Ast) := [
  (txt "",
    (.empty)),
  (txt "a",
    (.lit 97#8)),
  (txt "(?:)",
    (.empty)),
  (txt "(?:)+",
    (.rep .greedy 1 .inf (.empty))),
  (txt "(?:^)+",
    (.rep .greedy 1 .inf (.bol))),
  (txt "(?!)",
    (.neg (.look .ahead (.empty)))),
  (txt "()",
    (.cap 1 none (.empty))),
  (txt "a.?b",
    (.seq [(.lit 97#8), (.rep .greedy 0 (.fin 1) (.wildcard)), (.lit 98#8)])),
  (txt "^ab",
    (.seq [(.bol), (.lit 97#8), (.lit 98#8)])),
  (txt "ab$",
    (.seq [(.lit 97#8), (.lit 98#8), (.eol)])),
  (txt "^ab$",
    (.seq [(.bol), (.lit 97#8), (.lit 98#8), (.eol)])),
  (txt "(?>)",
    (.rep .possessive 1 (.fin 1) (.empty))),
  (txt "(?>a)",
    (.rep .possessive 1 (.fin 1) (.lit 97#8))),
  (txt "(?>a)+",
    (.rep .greedy 1 .inf (.rep .possessive 1 (.fin 1) (.lit 97#8)))),
  (txt "(?>a)++",
    (.rep .possessive 1 .inf (.rep .possessive 1 (.fin 1) (.lit 97#8)))),
  (txt "(?>ab*(\\d))+?",
    (.rep .lazy 1 .inf (.rep .possessive 1 (.fin 1) (.seq [(.lit 97#8), (.rep .greedy 0 .inf (.lit 98#8)), (.cap 1 none (.range 48#8 57#8))])))),
  (txt "x(?=ab)x",
    (.seq [(.lit 120#8), (.look .ahead (.seq [(.lit 97#8), (.lit 98#8)])), (.lit 120#8)])),
  (txt ".+(?<=a+)a",
    (.seq [(.rep .greedy 1 .inf (.wildcard)), (.look .behind (.rep .greedy 1 .inf (.lit 97#8))), (.lit 97#8)])),
  (txt ".*(?<!a|b)",
    (.seq [(.rep .greedy 0 .inf (.wildcard)), (.neg (.look .behind (.alt [(.lit 97#8), (.lit 98#8)])))])),
  (txt "x(?!ab){2}x",
    (.seq [(.lit 120#8), (.rep .greedy 2 (.fin 2) (.neg (.look .ahead (.seq [(.lit 97#8), (.lit 98#8)])))), (.lit 120#8)])),
  (txt "x(?<=a(?<!c*d?)b)x",
    (.seq [(.lit 120#8), (.look .behind (.seq [(.lit 97#8), (.neg (.look .behind (.seq [(.rep .greedy 0 .inf (.lit 99#8)), (.rep .greedy 0 (.fin 1) (.lit 100#8))]))), (.lit 98#8)])), (.lit 120#8)])),
  (txt "\\R",
    (.set [.lit 10#8, .lit 13#8])),
  (txt "\\N",
    (.neg (.set [.lit 10#8, .lit 13#8]))),
  (txt "\\D",
    (.neg (.range 48#8 57#8))),
  (txt "\\b",
    (.wordB)),
  (txt "\\B",
    (.neg (.wordB))),
  (txt "\\A",
    (.boi)),
  (txt "\\Z",
    (.eoi)),
  (txt "\\n",
    (.lit 10#8)),
  (txt "\\r",
    (.lit 13#8)),
  (txt "\\t",
    (.lit 9#8)),
  (txt "\\f",
    (.lit 12#8)),
  (txt "\\v",
    (.lit 11#8)),
  (txt "\\a",
    (.lit 7#8)),
  (txt "\\e",
    (.lit 27#8)),
  (txt "\\x1b",
    (.lit 27#8)),
  (txt "\\x5F",
    (.lit 95#8)),
  (txt "\\x61",
    (.lit 97#8)),
  (txt "\\l",
    (.lit 108#8)),
  (txt "\\x01?",
    (.rep .greedy 0 (.fin 1) (.lit 1#8)))]

example : astTests1.all tree = true := by decide +kernel

/-- test/parser_ast_tests.cpp (part 2) -/
def astTests2 : List (List Byte × Ast) := [
  (txt "\\x09*",
    (.rep .greedy 0 .inf (.lit 9#8))),
  (txt "\\x0a+",
    (.rep .greedy 1 .inf (.lit 10#8))),
  (txt ".\\xFF.",
    (.seq [(.wildcard), (.lit 255#8), (.wildcard)])),
  (txt "\\xff{3,5}?",
    (.rep .lazy 3 (.fin 5) (.lit 255#8))),
  (txt "f*\\xfff+",
    (.seq [(.rep .greedy 0 .inf (.lit 102#8)), (.lit 255#8), (.rep .greedy 1 .inf (.lit 102#8))])),
  (txt "(c)",
    (.cap 1 none (.lit 99#8))),
  (txt "(?:c)",
    (.lit 99#8)),
  (txt "\\1",
    (.backref 1)),
  (txt "\\10",
    (.backref 10)),
  (txt "(?:\\1)0",
    (.seq [(.backref 1), (.lit 48#8)])),
  (txt "\\1+",
    (.rep .greedy 1 .inf (.backref 1))),
  (txt "\\42?",
    (.rep .greedy 0 (.fin 1) (.backref 42))),
  (txt "\\1+?",
    (.rep .lazy 1 .inf (.backref 1))),
  (txt "\\1++",
    (.rep .possessive 1 .inf (.backref 1))),
  (txt "\\42??",
    (.rep .lazy 0 (.fin 1) (.backref 42))),
  (txt "\\42?+",
    (.rep .possessive 0 (.fin 1) (.backref 42))),
  (txt "(c)\\1",
    (.seq [(.cap 1 none (.lit 99#8)), (.backref 1)])),
  (txt "(c)\\0",
    (.seq [(.cap 1 none (.lit 99#8)), (.lit 0#8)])),
  (txt "(c)\\12",
    (.seq [(.cap 1 none (.lit 99#8)), (.backref 12)])),
  (txt "(c)\\01",
    (.seq [(.cap 1 none (.lit 99#8)), (.lit 0#8), (.lit 49#8)])),
  (txt "(c)\\12?x",
    (.seq [(.cap 1 none (.lit 99#8)), (.rep .greedy 0 (.fin 1) (.backref 12)), (.lit 120#8)])),
  (txt "(?>((?>(c)))(e))",
    (.rep .possessive 1 (.fin 1) (.seq [(.cap 1 none (.rep .possessive 1 (.fin 1) (.cap 2 none (.lit 99#8)))), (.cap 3 none (.lit 101#8))]))),
  (txt "((?:c))(e)",
    (.seq [(.cap 1 none (.lit 99#8)), (.cap 2 none (.lit 101#8))])),
  (txt "c?",
    (.rep .greedy 0 (.fin 1) (.lit 99#8))),
  (txt "c*",
    (.rep .greedy 0 .inf (.lit 99#8))),
  (txt "c+",
    (.rep .greedy 1 .inf (.lit 99#8))),
  (txt "c??",
    (.rep .lazy 0 (.fin 1) (.lit 99#8))),
  (txt "c*?",
    (.rep .lazy 0 .inf (.lit 99#8))),
  (txt "c+?",
    (.rep .lazy 1 .inf (.lit 99#8))),
  (txt "c{0}",
    (.rep .greedy 0 (.fin 0) (.lit 99#8))),
  (txt "c{2,3}?",
    (.rep .lazy 2 (.fin 3) (.lit 99#8))),
  (txt "c{2}c{2}?c{2}+",
    (.seq [(.rep .greedy 2 (.fin 2) (.lit 99#8)), (.rep .lazy 2 (.fin 2) (.lit 99#8)), (.rep .possessive 2 (.fin 2) (.lit 99#8))])),
  (txt "c{",
    (.seq [(.lit 99#8), (.lit 123#8)])),
  (txt "c{}",
    (.seq [(.lit 99#8), (.lit 123#8), (.lit 125#8)])),
  (txt "c{*}",
    (.seq [(.lit 99#8), (.rep .greedy 0 .inf (.lit 123#8)), (.lit 125#8)])),
  (txt "c{22}",
    (.rep .greedy 22 (.fin 22) (.lit 99#8))),
  (txt "c{022}",
    (.rep .greedy 22 (.fin 22) (.lit 99#8))),
  (txt "c{22,}",
    (.rep .greedy 22 .inf (.lit 99#8))),
  (txt "c{22,0}?",
    (.rep .lazy 22 (.fin 0) (.lit 99#8))),
  (txt "c{984,7644}+",
    (.rep .possessive 984 (.fin 7644) (.lit 99#8)))]

example : astTests2.all tree = true := by decide +kernel

/-- test/parser_ast_tests.cpp (part 3) -/
def astTests3 : List (List Byte × Ast) := [
  (txt "c{0,22}",
    (.rep .greedy 0 (.fin 22) (.lit 99#8))),
  (txt "c{,22}",
    (.seq [(.lit 99#8), (.lit 123#8), (.lit 44#8), (.lit 50#8), (.lit 50#8), (.lit 125#8)])),
  (txt "c\\{22}",
    (.seq [(.lit 99#8), (.lit 123#8), (.lit 50#8), (.lit 50#8), (.lit 125#8)])),
  (txt "c{x}",
    (.seq [(.lit 99#8), (.lit 123#8), (.lit 120#8), (.lit 125#8)])),
  (txt "c*\\{012}",
    (.seq [(.rep .greedy 0 .inf (.lit 99#8)), (.lit 123#8), (.lit 48#8), (.lit 49#8), (.lit 50#8), (.lit 125#8)])),
  (txt "\\b\\{",
    (.seq [(.wordB), (.lit 123#8)])),
  (txt "\\b\\{012}",
    (.seq [(.wordB), (.lit 123#8), (.lit 48#8), (.lit 49#8), (.lit 50#8), (.lit 125#8)])),
  (txt "x\\A\\{+x?",
    (.seq [(.lit 120#8), (.boi), (.rep .greedy 1 .inf (.lit 123#8)), (.rep .greedy 0 (.fin 1) (.lit 120#8))])),
  (txt "(c*?\\{012}){3,}",
    (.rep .greedy 3 .inf (.cap 1 none (.seq [(.rep .lazy 0 .inf (.lit 99#8)), (.lit 123#8), (.lit 48#8), (.lit 49#8), (.lit 50#8), (.lit 125#8)])))),
  (txt "a(b(c()d)*){15}?",
    (.seq [(.lit 97#8), (.rep .lazy 15 (.fin 15) (.cap 1 none (.seq [(.lit 98#8), (.rep .greedy 0 .inf (.cap 2 none (.seq [(.lit 99#8), (.cap 3 none (.empty)), (.lit 100#8)])))])))])),
  (txt "(\\(+)*",
    (.rep .greedy 0 .inf (.cap 1 none (.rep .greedy 1 .inf (.lit 40#8))))),
  (txt "(\\++)*",
    (.rep .greedy 0 .inf (.cap 1 none (.rep .greedy 1 .inf (.lit 43#8))))),
  (txt "(?:\\++\\???)*?",
    (.rep .lazy 0 .inf (.seq [(.rep .greedy 1 .inf (.lit 43#8)), (.rep .lazy 0 (.fin 1) (.lit 63#8))]))),
  (txt "x(?:abc)*x",
    (.seq [(.lit 120#8), (.rep .greedy 0 .inf (.seq [(.lit 97#8), (.lit 98#8), (.lit 99#8)])), (.lit 120#8)])),
  (txt "x(?:abc)*+x",
    (.seq [(.lit 120#8), (.rep .possessive 0 .inf (.seq [(.lit 97#8), (.lit 98#8), (.lit 99#8)])), (.lit 120#8)])),
  (txt "()()((()())())",
    (.seq [(.cap 1 none (.empty)), (.cap 2 none (.empty)), (.cap 3 none (.seq [(.cap 4 none (.seq [(.cap 5 none (.empty)), (.cap 6 none (.empty))])), (.cap 7 none (.empty))]))])),
  (txt "\\\\",
    (.lit 92#8)),
  (txt "\\(??\\x8c+",
    (.seq [(.rep .lazy 0 (.fin 1) (.lit 40#8)), (.rep .greedy 1 .inf (.lit 140#8))])),
  (txt "abc",
    (.seq [(.lit 97#8), (.lit 98#8), (.lit 99#8)])),
  (txt "a|b|c",
    (.alt [(.lit 97#8), (.lit 98#8), (.lit 99#8)])),
  (txt "aa|bb|cc",
    (.alt [(.seq [(.lit 97#8), (.lit 97#8)]), (.seq [(.lit 98#8), (.lit 98#8)]), (.seq [(.lit 99#8), (.lit 99#8)])])),
  (txt "a?|b|c",
    (.alt [(.rep .greedy 0 (.fin 1) (.lit 97#8)), (.lit 98#8), (.lit 99#8)])),
  (txt "[a]",
    (.set [(.lit 97#8)])),
  (txt "[.]",
    (.set [(.lit 46#8)])),
  (txt "[]",
    (.set [])),
  (txt "[^]",
    (.neg (.set []))),
  (txt "[-]",
    (.set [(.lit 45#8)])),
  (txt "[\\0]",
    (.set [(.lit 0#8)])),
  (txt "[\\1]",
    (.set [(.lit 49#8)])),
  (txt "[\\k]",
    (.set [(.lit 107#8)])),
  (txt "[(]",
    (.set [(.lit 40#8)])),
  (txt "[)]",
    (.set [(.lit 41#8)])),
  (txt "[\\k<test>]",
    (.set [(.lit 62#8), (.lit 116#8), (.lit 115#8), (.lit 101#8), (.lit 116#8), (.lit 60#8), (.lit 107#8)])),
  (txt "[a-]",
    (.set [(.lit 45#8), (.lit 97#8)])),
  (txt "[\\d-a]",
    (.set [(.lit 97#8), (.lit 45#8), (.range 48#8 57#8)])),
  (txt "[\\d-\\xf8]",
    (.set [(.lit 248#8), (.lit 45#8), (.range 48#8 57#8)])),
  (txt "[a][b\\w]",
    (.seq [(.set [(.lit 97#8)]), (.set [(.range 97#8 122#8), (.range 65#8 90#8), (.range 48#8 57#8), (.lit 95#8), (.lit 98#8)])])),
  (txt "[][b]",
    (.seq [(.set []), (.set [(.lit 98#8)])])),
  (txt "[a]?[\\x10]",
    (.seq [(.rep .greedy 0 (.fin 1) (.set [(.lit 97#8)])), (.set [(.lit 16#8)])])),
  (txt "[a]??[b]?",
    (.seq [(.rep .lazy 0 (.fin 1) (.set [(.lit 97#8)])), (.rep .greedy 0 (.fin 1) (.set [(.lit 98#8)]))]))]

example : astTests3.all tree = true := by decide +kernel

/-- test/parser_ast_tests.cpp (part 4) -/
def astTests4 : List (List Byte × Ast) := [
  (txt "[abc]",
    (.set [(.lit 99#8), (.lit 98#8), (.lit 97#8)])),
  (txt "[a-z]",
    (.set [(.range 97#8 122#8)])),
  (txt "[\\0-\\n]",
    (.set [(.range 0#8 10#8)])),
  (txt "[\\X-\\Y]",
    (.set [(.range 88#8 89#8)])),
  (txt "[a\\-z]",
    (.set [(.lit 122#8), (.lit 45#8), (.lit 97#8)])),
  (txt "[a-z-]",
    (.set [(.lit 45#8), (.range 97#8 122#8)])),
  (txt "[a-z-A]",
    (.set [(.lit 65#8), (.lit 45#8), (.range 97#8 122#8)])),
  (txt "[a-z0-9A-Z]",
    (.set [(.range 65#8 90#8), (.range 48#8 57#8), (.range 97#8 122#8)])),
  (txt "[A-[0-\\]]",
    (.set [(.range 48#8 93#8), (.range 65#8 91#8)])),
  (txt "[^A-[0-\\]]",
    (.neg (.set [(.range 48#8 93#8), (.range 65#8 91#8)]))),
  (txt "[-A-[0-\\]]",
    (.set [(.range 48#8 93#8), (.range 65#8 91#8), (.lit 45#8)])),
  (txt "[^-aA-Z]",
    (.neg (.set [(.range 65#8 90#8), (.lit 97#8), (.lit 45#8)]))),
  (txt "a[^-a-z\\WA-Z]",
    (.seq [(.lit 97#8), (.neg (.set [(.range 65#8 90#8), (.neg (.set [.range 97#8 122#8, .range 65#8 90#8, .range 48#8 57#8, .lit 95#8])), (.range 97#8 122#8), (.lit 45#8)]))])),
  (txt "\\h\\X[^a^[\\]b\\c]yy",
    (.seq [(.lit 104#8), (.lit 88#8), (.neg (.set [(.lit 99#8), (.lit 98#8), (.lit 93#8), (.lit 91#8), (.lit 94#8), (.lit 97#8)])), (.lit 121#8), (.lit 121#8)])),
  (txt "((?<_t3st1ng>tuv)?b+?)*|\\x0E??y",
    (.alt [(.rep .greedy 0 .inf (.cap 1 none (.seq [(.rep .greedy 0 (.fin 1) (.cap 2 (some (txt "_t3st1ng")) (.seq [(.lit 116#8), (.lit 117#8), (.lit 118#8)]))), (.rep .lazy 1 .inf (.lit 98#8))]))), (.seq [(.rep .lazy 0 (.fin 1) (.lit 14#8)), (.lit 121#8)])])),
  (txt "(?<group_name>)",
    (.cap 1 (some (txt "group_name")) (.empty))),
  (txt "(?<test>x+)",
    (.cap 1 (some (txt "test")) (.rep .greedy 1 .inf (.lit 120#8)))),
  (txt "(?<group_name>x+?)\\k<group_name>",
    (.seq [(.cap 1 (some (txt "group_name")) (.rep .lazy 1 .inf (.lit 120#8))), (.namedBackref (txt "group_name"))])),
  (txt "x(?<_capture_name>(?>abc?))+",
    (.seq [(.lit 120#8), (.rep .greedy 1 .inf (.cap 1 (some (txt "_capture_name")) (.rep .possessive 1 (.fin 1) (.seq [(.lit 97#8), (.lit 98#8), (.rep .greedy 0 (.fin 1) (.lit 99#8))]))))])),
  (txt "(?<grp_1>abc)?\\x09\\k<grp_1>\\x0A(?<grp_2>xyz){2,}",
    (.seq [(.rep .greedy 0 (.fin 1) (.cap 1 (some (txt "grp_1")) (.seq [(.lit 97#8), (.lit 98#8), (.lit 99#8)]))), (.lit 9#8), (.namedBackref (txt "grp_1")), (.lit 10#8), (.rep .greedy 2 .inf (.cap 2 (some (txt "grp_2")) (.seq [(.lit 120#8), (.lit 121#8), (.lit 122#8)])))]))]

example : astTests4.all tree = true := by decide +kernel

end Mregex.Check
