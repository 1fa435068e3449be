{"id": "C01", "title": "Matching terminates and never reads outside the input", "statement": "For every regex that satisfies the library's static requirements and every finite input range, match(), match_prefix() and search() return a result: they do not recurse or loop forever, and they never dereference an iterator outside [begin,end) nor move one outside [begin,end].", "quantifier": "all well-formed regexes, flags, iterator categories, inputs, and (for the low level entry point) all start positions", "why_tests_cant": "Tests run finitely many pattern/input pairs; non-termination or an out-of-range read needs one bad combination of nested quantifiers, empty matches and input length.", "anchors": ["include/mregex/ast/nodes/quantifiers/repetition.hpp: will_loop_forever, bounded_*_match", "include/mregex/ast/nodes/quantifiers/fixed_repetition.hpp", "include/mregex/regex_methods.hpp", "include/mregex/ast/traits.hpp: is_zero_length_matcher"]}
{"id": "C02", "title": "match() accepts exactly the language of the regex", "statement": "For a regex without backreferences and without atomic/possessive constructs (lookbehind bodies restricted to direction-neutral ones), match(input) succeeds if and only if the whole input belongs to the language denoted by the regex in the usual mathematical sense (concatenation, union, bounded and unbounded iteration, character classes, zero-width assertions at the position).", "quantifier": "all such regexes, flags, inputs", "why_tests_cant": "Language equality is a statement about infinitely many strings per pattern and infinitely many patterns.", "anchors": ["include/mregex/regex_methods.hpp: regex_match_method", "include/mregex/ast/nodes/sequence.hpp", "include/mregex/ast/nodes/alternation.hpp", "include/mregex/ast/nodes/quantifiers/repetition.hpp"]}
{"id": "C03", "title": "match_prefix() succeeds iff some prefix is in the language, and reports such a prefix", "statement": "For the same class of regexes, match_prefix(input) succeeds iff some prefix of the input is matched by the regex; on success group 0 is a prefix that is matched by the regex.", "quantifier": "all such regexes, flags, inputs", "why_tests_cant": "Completeness over all prefixes and all patterns cannot be enumerated.", "anchors": ["include/mregex/regex_methods.hpp: regex_match_prefix_method"]}
{"id": "C04", "title": "search() finds the leftmost match", "statement": "For the same class of regexes, search(input) succeeds iff the regex matches somewhere in the input, and on success group 0 starts at the smallest start position at which a match exists and spans text matched by the regex.", "quantifier": "all such regexes, flags, inputs", "why_tests_cant": "Leftmostness quantifies over all earlier positions, all inputs and all patterns.", "anchors": ["include/mregex/regex_methods.hpp: regex_search_method"]}
{"id": "C05", "title": "search() agrees with an anchored attempt at the reported position", "statement": "The verdict and the end position of a search() hit are those of an independent, fresh attempt to match at the reported start position; the attempts made at earlier positions have no influence.", "quantifier": "all regexes, inputs", "why_tests_cant": "State leaking from failed attempts only shows for particular pattern/input combinations.", "anchors": ["include/mregex/regex_methods.hpp: regex_search_method", "include/mregex/regex_match_context.hpp", "include/mregex/ast/nodes/capture.hpp"]}
{"id": "C06", "title": "Priority order of alternatives and quantifiers", "statement": "Among all ways to match, the library reports the first one in backtracking order: alternatives are tried left to right, greedy quantifiers prefer one more iteration over stopping, lazy quantifiers prefer stopping, and earlier choices take precedence over later ones.", "quantifier": "all backreference-free regexes, flags, inputs, start positions", "why_tests_cant": "The winner among exponentially many parses depends on every nested choice.", "anchors": ["include/mregex/ast/nodes/alternation.hpp", "include/mregex/ast/nodes/quantifiers/repetition.hpp"]}
{"id": "C07", "title": "Group 0 spans exactly the reported match", "statement": "On success group<0>() is the whole input for match(), a prefix starting at the first character for match_prefix(), and for search() a range [i,j) such that the regex matched from i to j; length() is the length of that range.", "quantifier": "all regexes, flags, inputs", "why_tests_cant": "Quantifies over all regexes and inputs.", "anchors": ["include/mregex/regex_methods.hpp", "include/mregex/match_result.hpp: length"]}
{"id": "C08", "title": "A failed match has an empty group 0", "statement": "If a result is not matched() then its group<0>() is empty and length() is 0.", "quantifier": "all regexes, inputs, and the methods match, match_prefix, search", "why_tests_cant": "Whether some failing combination leaves a partial range is not visible from a few failing samples.", "anchors": ["include/mregex/regex_methods.hpp", "include/mregex/ast/nodes/sequence.hpp: unrolled_trivial_match", "include/mregex/utility/continuations.hpp: equals"]}
{"id": "C09", "title": "Captured ranges always lie inside the input", "statement": "In every result (matched or not), each group is either untouched (empty) or a range [b,e) with begin <= b <= e <= end of the input.", "quantifier": "all well-formed regexes (including backreferences, lookarounds), flags, inputs", "why_tests_cant": "An inverted or dangling range could appear only in a rare interplay of lookbehind and backtracking.", "anchors": ["include/mregex/ast/nodes/capture.hpp: capture_matched_range", "include/mregex/regex_methods.hpp"]}
{"id": "C10", "title": "A captured text is matched by the group's own sub-expression", "statement": "In a result of a regex without backreferences, atomic or possessive constructs, every non-empty group k holds a range that the k-th group's sub-expression matches at that place of the input.", "quantifier": "all such regexes, inputs, groups", "why_tests_cant": "A relation between captured content and sub-expression over all inputs.", "anchors": ["include/mregex/ast/nodes/capture.hpp"]}
{"id": "C11", "title": "A group holds the text of its last participation in the match", "statement": "After a successful match every group contains the text it matched in its last iteration on the successful path (and is empty when it did not participate).", "quantifier": "all regexes, inputs, groups", "why_tests_cant": "Depends on the whole history of backtracking.", "anchors": ["include/mregex/ast/nodes/capture.hpp: match (clear on failure)", "include/mregex/ast/nodes/quantifiers/repetition.hpp: bounded_greedy_match"]}
{"id": "C12", "title": "Abandoned attempts leave no captures behind", "statement": "A group that is not part of the successful path (for example one that belongs to an abandoned alternative) is empty in the result; in particular a non-matching result has only empty groups 1..n.", "quantifier": "all regexes, inputs", "why_tests_cant": "Requires exploring every abandoned branch of every pattern.", "anchors": ["include/mregex/ast/nodes/capture.hpp", "include/mregex/ast/nodes/quantifiers/fixed_repetition.hpp: atomic", "include/mregex/ast/predicates/lookaround_predicate.hpp"]}
{"id": "C13", "title": "Lookaheads are zero-width and exact", "statement": "(?=X) succeeds at a position without consuming input iff X matches some text starting there; (?!X) succeeds, without consuming input, iff (?=X) does not.", "quantifier": "all X, inputs, positions", "why_tests_cant": "Negation means no extension of the input matches: a universal statement.", "anchors": ["include/mregex/ast/nodes/lookaround.hpp", "include/mregex/ast/predicates/lookaround_predicate.hpp: lookahead_predicate", "include/mregex/ast/predicates/negate.hpp"]}
{"id": "C14", "title": "Lookbehinds are zero-width and exact", "statement": "(?<=X) succeeds at a position without consuming input iff X matches some text ending there; (?<!X) iff not.", "quantifier": "all X, inputs, positions", "why_tests_cant": "X is mirrored at compile time and run on reverse iterators; correctness of mirroring is a statement about all X.", "anchors": ["include/mregex/ast/inversion.hpp", "include/mregex/ast/predicates/lookaround_predicate.hpp: lookbehind_predicate"]}
{"id": "C15", "title": "Atomic groups commit to their first match", "statement": "(?>X) matches exactly the highest-priority match of X at the position and is never re-entered: the overall match continues from that end or fails.", "quantifier": "all backreference-free X, continuations, inputs", "why_tests_cant": "No finite set of continuations shows that backtracking never happens.", "anchors": ["include/mregex/ast/nodes/quantifiers/fixed_repetition.hpp: basic_repetition<possessive,1,1>"]}
{"id": "C16", "title": "A possessive quantifier is an atomic greedy quantifier", "statement": "X{n,m}+ behaves like (?>X{n,m}) for every continuation.", "quantifier": "all backreference-free X, bounds, inputs", "why_tests_cant": "Equivalence of two different loops under all contexts.", "anchors": ["include/mregex/ast/nodes/quantifiers/repetition.hpp: bounded_possessive_match"]}
{"id": "C17", "title": "Anchors", "statement": "\\A and (without multiline) ^ hold exactly at the start of the input, \\Z and (without multiline) $ exactly at its end; with multiline ^ additionally holds right after \\n or \\r and $ right before one; none of them consumes input.", "quantifier": "all inputs, positions, flags", "why_tests_cant": "Position/neighbour combinations at the edges of all inputs.", "anchors": ["include/mregex/ast/predicates/anchor_predicates.hpp", "include/mregex/ast/nodes/terminals/anchors.hpp"]}
{"id": "C18", "title": "Word boundaries", "statement": "\\b holds at a position iff exactly one of the neighbouring characters exists and is a word character; \\B is its exact complement.", "quantifier": "all inputs and positions", "why_tests_cant": "Includes both ends and all byte values.", "anchors": ["include/mregex/ast/predicates/anchor_predicates.hpp: word_boundary_predicate"]}
{"id": "C19", "title": "icase makes the result independent of letter case", "statement": "With regex_flag::icase two inputs that differ only in the case of ASCII letters give the same verdict and the same group ranges for every regex and method.", "quantifier": "all regexes (including sets, ranges, negation, backreferences), all pairs of case-equivalent inputs", "why_tests_cant": "A relational statement about pairs of runs.", "anchors": ["include/mregex/ast/nodes/terminals/literal.hpp", "include/mregex/ast/nodes/terminals/range.hpp: is_in_alpha_subrange", "include/mregex/ast/nodes/terminals/backref.hpp: equals"]}
{"id": "C20", "title": "Wildcard and dotall", "statement": ". matches every byte except \\n and \\r; with dotall every byte; and dotall changes nothing else: on inputs without line breaks results with and without dotall coincide.", "quantifier": "all regexes, inputs", "why_tests_cant": "Statement about all bytes and about all inputs free of line breaks.", "anchors": ["include/mregex/ast/nodes/terminals/wildcard.hpp"]}
{"id": "C21", "title": "ungreedy swaps greedy and lazy quantifiers and nothing else", "statement": "A regex with regex_flag::ungreedy gives the same results as the regex in which every greedy quantifier is made lazy and vice versa (possessive ones untouched) without the flag; setting it never changes the verdict of match() for regexes without backreferences, atomic or possessive constructs.", "quantifier": "all regexes, inputs", "why_tests_cant": "Equivalence of two programs.", "anchors": ["include/mregex/ast/nodes/quantifiers/repetition.hpp: match_between_bounds", "include/mregex/regex_flags.hpp"]}
{"id": "C22", "title": "unroll has no observable effect", "statement": "Adding or removing regex_flag::unroll changes neither the verdict nor any group of any method.", "quantifier": "all regexes, inputs, iterator categories", "why_tests_cant": "Equivalence of two code paths over all inputs.", "anchors": ["include/mregex/ast/nodes/quantifiers/fixed_repetition.hpp"]}
{"id": "C23", "title": "Only the set of flags matters", "statement": "The order and multiplicity in which flags are given is irrelevant; clear_flags removes all of them.", "quantifier": "all flag lists", "why_tests_cant": "All permutations and repetitions.", "anchors": ["include/mregex/regex_flags.hpp: regex_flag_sequence", "include/mregex/regex.hpp: add_flags, clear_flags"]}
{"id": "C24", "title": "Results do not depend on the iterator category", "statement": "Matching the same characters through forward, bidirectional or random access iterators yields the same verdict and, on success, the same groups.", "quantifier": "all regexes usable with all categories, inputs", "why_tests_cant": "Three separate implementations selected by overload resolution have to agree on everything.", "anchors": ["include/mregex/ast/nodes/sequence.hpp", "include/mregex/ast/nodes/quantifiers/repetition.hpp: bounded_greedy_match", "include/mregex/ast/nodes/quantifiers/fixed_repetition.hpp", "include/mregex/utility/distance.hpp"]}
{"id": "C25", "title": "Quantifier bounds are respected exactly", "statement": "X{n,m} matches exactly the concatenations of k matches of X with n<=k<=m (no upper limit for {n,}); {n} means n copies; *, +, ? are {0,}, {1,}, {0,1}.", "quantifier": "all X, n, m, inputs", "why_tests_cant": "All n, m and inputs.", "anchors": ["include/mregex/ast/nodes/quantifiers/repetition.hpp", "include/mregex/ast/nodes/quantifiers/fixed_repetition.hpp", "include/mregex/symbols/quantifiers.hpp"]}
{"id": "C26", "title": "Greedy/lazy choice never changes the verdict of match()", "statement": "Replacing greedy by lazy quantifiers (or back) anywhere in a regex without backreferences, atomic or possessive constructs does not change whether match(), match_prefix() or search() succeed.", "quantifier": "all such regexes, inputs", "why_tests_cant": "Equivalence over all inputs.", "anchors": ["include/mregex/ast/nodes/quantifiers/repetition.hpp"]}
{"id": "C27", "title": "Backreferences match the captured text", "statement": "\\k consumes exactly a copy (up to letter case with icase) of the text currently held by group k and fails if the input does not continue with it; a reference to a group that has not participated matches the empty string.", "quantifier": "all captured texts, positions, inputs", "why_tests_cant": "All texts and positions including the end of input.", "anchors": ["include/mregex/ast/nodes/terminals/backref.hpp"]}
{"id": "C28", "title": "(X)\\1 recognises exactly the squares", "statement": "match() of the regex (X)\\1 accepts exactly the inputs ww with w in the language of X, for X without backreferences, captures, atomic/possessive constructs and context-dependent assertions.", "quantifier": "all X, inputs", "why_tests_cant": "A non-regular language: needs an argument for all w.", "anchors": ["include/mregex/ast/nodes/terminals/backref.hpp", "include/mregex/ast/nodes/capture.hpp"]}
{"id": "C29", "title": "Tokenizer output is a contiguous, ordered cover of a prefix", "statement": "The matched results generated by tokenizer()/tokenize() are adjacent: the first starts at the beginning of the input and each one starts where the previous one ended; concatenating them gives a prefix of the input; at most one of them is empty and that one is the last.", "quantifier": "all regexes, inputs, numbers of calls", "why_tests_cant": "Invariant over unbounded call histories.", "anchors": ["include/mregex/match_result_generator.hpp", "include/mregex/regex.hpp: tokenizer, tokenize"]}
{"id": "C30", "title": "Searcher output is ordered and non-overlapping", "statement": "The matched results generated by searcher()/find_all() are ordered by position, pairwise disjoint, at most one is empty and that one is the last, and there are at most length+1 of them.", "quantifier": "all regexes, inputs, numbers of calls", "why_tests_cant": "Invariant over unbounded call histories.", "anchors": ["include/mregex/match_result_generator.hpp", "include/mregex/regex.hpp: searcher, find_all"]}
{"id": "C31", "title": "find_all() reports all non-empty matches", "statement": "find_all() yields every non-empty match found by repeatedly searching from the end of the previous match, and nothing is left: after the last result no non-empty match exists in the remaining input.", "quantifier": "all regexes, inputs", "why_tests_cant": "Completeness over the rest of the input.", "anchors": ["include/mregex/regex.hpp: find_all", "include/mregex/match_result_generator.hpp: next"]}
{"id": "C32", "title": "An exhausted generator stays exhausted", "statement": "Once a generator has returned a non-match or an empty match, active() is false and every later call returns a non-match with empty groups; a generator is exhausted after at most length+2 calls.", "quantifier": "all regexes, inputs, numbers of further calls", "why_tests_cant": "Unbounded number of later calls.", "anchors": ["include/mregex/match_result_generator.hpp"]}
{"id": "C33", "title": "Ranges yield exactly the generator's matches", "statement": "Iterating tokenize()/find_all() visits exactly the matched results the corresponding generator produces before its first non-match, in order, and then reaches the end sentinel.", "quantifier": "all regexes, inputs", "why_tests_cant": "Relates two stateful objects over unbounded iteration.", "anchors": ["include/mregex/utility/input_range_adapter.hpp", "include/mregex/regex.hpp"]}
{"id": "C34", "title": "The pattern parser always reaches a verdict", "statement": "For every pattern (every byte sequence) parsing terminates either with an AST or with a syntax error whose position is at most the pattern length; it never runs into an undefined semantic action.", "quantifier": "all byte sequences", "why_tests_cant": "Infinitely many patterns; an undefined action is a hard compile error instead of a diagnostic.", "anchors": ["include/mregex/parser/parser.hpp", "include/mregex/parser/state.hpp", "include/mregex/grammar/grammar.hpp", "include/mregex/ast/build.hpp"]}
{"id": "C35", "title": "Escaped literals match themselves", "statement": "For every byte string w, the pattern obtained by hex-escaping its bytes (or by backslash-escaping the non-alphanumeric ones) is accepted by the parser and match() of it accepts exactly w.", "quantifier": "all byte strings w, all inputs", "why_tests_cant": "All strings over 256 symbols.", "anchors": ["include/mregex/grammar/escapes.hpp", "include/mregex/grammar/hexadecimal.hpp", "include/mregex/ast/nodes/terminals/literal.hpp"]}
{"id": "C36", "title": "Parsing inverts printing", "statement": "For every regex syntax tree in normal form, writing it as a pattern with the documented syntax and parsing that pattern gives the tree back: precedence of alternation, concatenation and quantifiers, grouping, captures, sets and lookarounds are read as written.", "quantifier": "all normal-form trees", "why_tests_cant": "Structural statement about all trees.", "anchors": ["include/mregex/grammar/grammar.hpp", "include/mregex/ast/build.hpp", "include/mregex/parser/parser.hpp"]}
{"id": "C37", "title": "Hexadecimal escapes denote their byte", "statement": "\\xHH with any two hexadecimal digits (either case) denotes the literal with that value; every byte can be written this way.", "quantifier": "all digit pairs", "why_tests_cant": "Needs all 256 values in both cases and all surrounding patterns.", "anchors": ["include/mregex/grammar/hexadecimal.hpp", "include/mregex/utility/char_traits.hpp"]}
{"id": "C38", "title": "Decimal numbers in quantifiers and backreferences denote their value", "statement": "A decimal numeral in {n}, {n,}, {n,m} or \\n is read as its mathematical value.", "quantifier": "all numerals", "why_tests_cant": "Unbounded digit strings.", "anchors": ["include/mregex/symbols/quantifiers.hpp", "include/mregex/grammar/quantifiers.hpp", "include/mregex/grammar/backrefs.hpp"]}
{"id": "C39", "title": "A brace that starts no quantifier is an ordinary character", "statement": "If { does not start a well-formed quantifier it is parsed as if it were written \\{ (as documented).", "quantifier": "all patterns containing such a brace", "why_tests_cant": "All surrounding contexts.", "anchors": ["include/mregex/grammar/quantifiers.hpp: abort_quantifier", "include/mregex/grammar/grammar.hpp: quantifier_*"]}
{"id": "C40", "title": "Character sets denote the union of their items", "statement": "[items] matches one byte iff one of its items (character, inclusive unsigned range, class escape) contains it; [^items] matches one byte iff [items] does not; at the end of input neither matches.", "quantifier": "all item lists, all bytes", "why_tests_cant": "All item lists.", "anchors": ["include/mregex/grammar/grammar.hpp: set_*", "include/mregex/ast/build.hpp: make_set_*, make_range*", "include/mregex/ast/nodes/set.hpp", "include/mregex/ast/nodes/terminals/range.hpp"]}
{"id": "C41", "title": "Capturing groups are numbered by their opening parenthesis", "statement": "In a parsed regex the groups are numbered 1,2,3,... in the order of their opening parentheses.", "quantifier": "all patterns", "why_tests_cant": "All patterns.", "anchors": ["include/mregex/ast/indexing.hpp: capture_indexer", "include/mregex/ast/traits.hpp: capture_count, capture_name_spec"]}
{"id": "C42", "title": "Named groups", "statement": "group<\"name\">() and \\k<name> refer to the same content as group<k>() and \\k where k is the number of the group carrying that (unique) name.", "quantifier": "all regexes with unique group names", "why_tests_cant": "All regexes.", "anchors": ["include/mregex/match_result.hpp: group", "include/mregex/ast/traits.hpp: capture_name_spec", "include/mregex/ast/nodes/terminals/backref.hpp: name_lookup_method"]}
{"id": "C43", "title": "Class escapes denote the documented sets", "statement": "\\d \\w \\s \\R match exactly the ASCII digits, the word characters [A-Za-z0-9_], the white space characters (\\n \\r space \\t \\v \\f) and the line breaks (\\n \\r); \\D \\W \\S \\N match exactly the remaining bytes.", "quantifier": "all 256 bytes, any position of the input", "why_tests_cant": "Conceptually finite per class, but tests sample a few bytes.", "anchors": ["include/mregex/grammar/escapes.hpp", "include/mregex/ast/astfwd.hpp", "include/mregex/ast/build.hpp"]}
{"id": "C44", "title": "Result conversions are faithful", "statement": "matched(), the conversion to bool and as_optional() agree; as_memory_owner() preserves the verdict and the text of every group; a capture converts to true iff it holds a non-empty text.", "quantifier": "all results", "why_tests_cant": "All results.", "anchors": ["include/mregex/match_result.hpp", "include/mregex/regex_capture.hpp: operator bool"]}
{"id": "C45", "title": "Character utilities are correct on all bytes", "statement": "Classification and case conversion agree with ASCII on all 256 byte values, invert_case is an involution, and bytes >= 0x80 are never letters, digits or word characters.", "quantifier": "all bytes", "why_tests_cant": "char is signed; only a full table settles it.", "anchors": ["include/mregex/utility/char_traits.hpp"]}
{"id": "C46", "title": "Expression-template combinators compose languages", "statement": "xpr::concat / >> denote concatenation, xpr::either / | ordered choice, str<S> exactly the string S, and the flattening performed by the combinators does not change any result.", "quantifier": "all operand regexes, inputs", "why_tests_cant": "All operands.", "anchors": ["include/mregex/xpr/adapters.hpp", "include/mregex/xpr/components.hpp", "include/mregex/xpr/operators.hpp"]}
{"id": "C47", "title": "Matching is local", "statement": "For regexes without anchors, word boundaries, lookarounds and backreferences, whether a stretch of text is matched depends only on that stretch: a match stays one when the surrounding text changes.", "quantifier": "all such regexes, all surrounding texts", "why_tests_cant": "All contexts.", "anchors": ["include/mregex/ast/nodes/sequence.hpp", "include/mregex/ast/nodes/quantifiers/repetition.hpp"]}
{"id": "C48", "title": "Mirroring an AST reverses its language", "statement": "For regexes built from characters, concatenation, alternation, groups and non-possessive quantifiers, the mirrored regex matches exactly the reversed strings, and mirroring twice gives the regex back.", "quantifier": "all such regexes, strings", "why_tests_cant": "All regexes.", "anchors": ["include/mregex/ast/inversion.hpp", "include/mregex/utility/type_sequence.hpp: reverse_type_pack"]}
{"id": "C49", "title": "The empty-match classification is sound", "statement": "A regex that the library classifies as not being a zero-length matcher never matches the empty string at any position, so unbounded repetition of it always advances.", "quantifier": "all regexes, inputs, positions", "why_tests_cant": "Soundness over all regexes.", "anchors": ["include/mregex/ast/traits.hpp: is_zero_length_matcher"]}
{"id": "C50", "title": "match() is match_prefix() with an end anchor", "statement": "match() of R gives the same verdict and the same groups as match_prefix() of R\\Z.", "quantifier": "all regexes (including backreferences), inputs", "why_tests_cant": "Equivalence of two methods for all inputs.", "anchors": ["include/mregex/regex_methods.hpp", "include/mregex/utility/continuations.hpp"]}
{"id": "C51", "title": "Compile-time lists are reversed and concatenated correctly", "statement": "The block-wise (by four) concatenation and reversal of type lists equal the mathematical operations for every length.", "quantifier": "all list lengths", "why_tests_cant": "Block boundaries for all lengths.", "anchors": ["include/mregex/utility/type_sequence.hpp: concat, reverse_type_pack"]}
{"id": "C52", "title": "The parser accepts exactly the grammar of patterns", "statement": "A pattern is accepted exactly when it belongs to the documented context-free grammar of patterns (alternation, concatenation, quantifiers with suffixes, groups, sets, escapes, assertions, references), the resulting tree is the one the grammar assigns, the grammar is unambiguous, and every other text is a syntax error at a position of the text or a group opener at its end.", "quantifier": "all texts", "why_tests_cant": "Equality of an infinite set of accepted texts with an infinite language; tests check single patterns.", "anchors": ["include/mregex/parser/parser.hpp", "include/mregex/parser/state.hpp", "include/mregex/grammar/grammar.hpp", "include/mregex/ast/build.hpp"]}
{"id": "C53", "title": "Backtracking follows the order of preference with backreferences and groups", "statement": "For regexes in which lookarounds and possessive constructs contain no groups and references, and in which references point to groups that cannot be tried again after they took part, each method succeeds iff there is a path through the regex (a choice of branches and iteration counts in which every reference repeats the text of its group on that path), and reports start and end of the first path in the order of preference.", "quantifier": "all such regexes, inputs, methods", "why_tests_cant": "The order among all paths with shared mutable captures; needs an argument over every backtracking history.", "anchors": ["include/mregex/ast/nodes/capture.hpp", "include/mregex/ast/nodes/terminals/backref.hpp", "include/mregex/regex_methods.hpp"]}
{"id": "C54", "title": "The methods decide membership in the formal language of the regex", "statement": "For regexes without references, assertions and possessive constructs, match() accepts exactly the texts of the language obtained from the regex by union, product, power and Kleene star; match_prefix() exactly the texts that begin with one; search() exactly the texts that contain one. Regexes with equal languages give equal verdicts and equally placed matches.", "quantifier": "all such regexes, flags, inputs, iterator categories", "why_tests_cant": "Equality with an infinite language for every regex; tests compare single pairs of regex and text.", "anchors": ["include/mregex/regex_methods.hpp", "include/mregex/ast/nodes/quantifiers/repetition.hpp", "include/mregex/ast/nodes/sequence.hpp"]}
{"id": "C55", "title": "Trivially matchable nodes take exactly one character", "statement": "A node for which is_trivially_matchable holds consumes exactly the next character in reading direction if that character alone is a match of the node, and fails otherwise; nothing but this character and the flags plays a role, and no capture changes. This justifies every optimised overload that calls match_one without checking anything else. A run of such nodes (a sequence or a fixed repetition) takes exactly one fitting character for each of them.", "quantifier": "all nodes with the trait, all positions, inputs, captures, continuations, both reading directions", "why_tests_cant": "The trait is computed by recursion over arbitrary trees; every combination of nodes, flags and characters would have to be tried.", "anchors": ["include/mregex/ast/traits.hpp:11-37", "include/mregex/ast/nodes/trivially_matchable.hpp"]}
{"id": "C56", "title": "A result has one group per capturing parenthesis", "statement": "For every accepted pattern, capture_count is the number of opening parentheses that begin a capturing group, and every result of every method has that number of groups plus the group 0 for the whole match.", "quantifier": "all accepted patterns, flags, inputs, methods", "why_tests_cant": "Relates the text of every pattern to the size of results; the space of patterns is infinite.", "anchors": ["include/mregex/ast/traits.hpp:39-52", "include/mregex/regex_traits.hpp", "include/mregex/match_result.hpp"]}
{"id": "C57", "title": "Which accepted patterns can be used", "statement": "An accepted pattern can be used for matching iff its ranges and bounds are in order, its references by number refer to existing groups and its references by name to exactly one group, each group has under its number the name it was given, no group is read under two reversals, and, with merely forward iterators, nothing needs to look back. All other static requirements of the library are met by what the parser builds, as long as no character is repeated 2^63 times or more (C107).", "quantifier": "all accepted patterns, flags, iterator categories", "why_tests_cant": "A program that does not compile cannot be run as a test, and the set of patterns is infinite.", "anchors": ["include/mregex/ast/nodes/terminals/range.hpp", "include/mregex/ast/nodes/quantifiers/repetition.hpp", "include/mregex/ast/nodes/capture.hpp", "include/mregex/ast/nodes/terminals/backref.hpp", "include/mregex/ast/nodes/set.hpp", "include/mregex/ast/nodes/negated.hpp"]}
{"id": "C58", "title": "Expressions mean what they say", "statement": "A C++ expression of the expression-based API compiles iff its functions have arguments that carry no flags, its strings are not empty and its patterns are accepted. The regex it gives has the flags that the expression adds, the groups that it writes in their order, the references that it writes in their order, and matches what the expression means: >> and concat are composition, | and either union, the repetitions iterations, ahead and behind tests of the text around a position, negate and ! the complement, a string its characters and a constant its class. Which of several matches is reported follows from the expression, too: left operands of | before right ones, more or fewer iterations first as the mode of the repetition says, earlier choices before later ones. >> and | are associative up to equality of types.", "quantifier": "all expressions (any nesting of all functions, operators, constants, patterns and flags of the API), flags, inputs, iterator categories", "why_tests_cant": "The expressions are infinitely many and nest arbitrarily; flattening of sequences and alternations and packing of arguments depend on the shapes of the operands, and expressions that must not compile cannot be run.", "anchors": ["include/mregex/xpr/components.hpp", "include/mregex/xpr/operators.hpp", "include/mregex/xpr/adapters.hpp", "include/mregex/xpr/flags.hpp", "include/mregex/xpr/providers.hpp"]}
{"id": "C59", "title": "Notational variants give the same results", "statement": "Writing a regex differently does not change what it does: redundant parentheses around sequences and around branches (the last of which is more than a character), classes of the same characters in any notation, X{n} and its n copies, X{1}, lazy exact repetitions, empty parts, double negations and lookaheads at assertions can be exchanged at any place of a regex. In regexes without references this also holds for parentheses around any branches and for repeated branches. Each variant is usable iff the other is, all methods return the same verdict and groups, and tokenize and find_all visit the same results.", "quantifier": "all regexes, flags, inputs, iterator categories, methods, places of rewriting and chains of rewriting steps", "why_tests_cant": "Two infinite families of regexes have to agree on all inputs; the special cases of the library (merging of characters in alternations, unrolled repetitions, assertions) are taken depending on the shape of the tree.", "anchors": ["include/mregex/ast/nodes/sequence.hpp", "include/mregex/ast/nodes/alternation.hpp", "include/mregex/ast/nodes/quantifiers/fixed_repetition.hpp", "include/mregex/ast/nodes/quantifiers/repetition.hpp", "include/mregex/ast/nodes/lookaround.hpp", "include/mregex/ast/nodes/negated.hpp", "include/mregex/ast/nodes/trivially_matchable.hpp"]}
{"id": "C60", "title": "Whatever can be used can be written as a pattern", "statement": "For every usable regex, however its tree was built (by the parser, by the expression-based API, by hand), whose names are names and whose groups carry the numbers that the parser would give them, there is a pattern text that the library accepts and can use with the same iterators, with the same group names, the same results of all methods and the same results visited by tokenize and find_all. So the pattern syntax loses nothing of the expression-based API except other names and numberings of groups.", "quantifier": "all usable trees, flags, iterator categories, methods, inputs; all expressions without groups", "why_tests_cant": "It is a statement of existence for each of infinitely many trees, with agreement on all inputs.", "anchors": ["include/mregex/parser/parser.hpp", "include/mregex/grammar/grammar.hpp", "include/mregex/ast/build.hpp", "include/mregex/xpr/components.hpp", "include/mregex/ast/nodes/negated.hpp", "include/mregex/ast/nodes/alternation.hpp"]}
{"id": "C61", "title": "Results outlive the temporaries they were computed from", "statement": "match, match_prefix and search can be given literals, views, containers and temporary containers. After the full expression of the call, all groups of the result can be read and hold the text of the groups of the call with iterators; loops over tokenize and find_all visit the results for the text. (False for temporaries with trivial destructors such as std::array, and for the lazy functions on temporary strings.)", "quantifier": "all usable regexes, flags, inputs, iterator categories, methods, kinds of arguments and groups", "why_tests_cant": "Reading memory that is gone often gives the right characters by chance, and which overload is taken depends on the type of the argument; the text of all groups has to be right for all inputs.", "anchors": ["include/mregex/regex.hpp", "include/mregex/utility/type_traits.hpp", "include/mregex/utility/concepts.hpp", "include/mregex/match_result.hpp", "include/mregex/utility/input_range_adapter.hpp"]}
{"id": "C62", "title": "Capturing groups only record", "statement": "In a regex without references, capturing groups have no influence on what matches. Making any of them plain parentheses and giving the others new numbers and names leaves the regex usable, changes neither the verdict nor the range of any call, nor the results visited by tokenize and find_all, and the groups that stay hold the same ranges as before, even after calls that fail.", "quantifier": "all usable regexes without references, flags, iterator categories, inputs, methods, all choices of groups to drop and injective renumberings, any number of calls of a generator", "why_tests_cant": "Groups are set and cleared on every path that is tried; that no path is taken or left because of them must hold for all nestings of groups, repetitions and lookarounds.", "anchors": ["include/mregex/ast/nodes/capture.hpp", "include/mregex/ast/nodes/quantifiers/repetition.hpp", "include/mregex/regex_capture.hpp", "include/mregex/match_result_generator.hpp", "include/mregex/regex_match_context.hpp"]}
{"id": "C63", "title": "Exact contents of all groups", "statement": "Without references, a call returns exactly what one gets by reading a list of steps computed from the regex, the text and the start alone: positions that are offered, groups that are set, groups that are cleared. The first accepted offer decides the verdict and the range, and every group holds what the steps before it left, also in failed calls, in repetitions, lookarounds and possessive parts, and for every call of a generator.", "quantifier": "all usable regexes without references, flags, iterator categories, inputs, methods, groups, states of a generator", "why_tests_cant": "What a group holds depends on all branches tried before, of which there are exponentially many.", "anchors": ["include/mregex/ast/nodes/capture.hpp", "include/mregex/ast/nodes/quantifiers/repetition.hpp", "include/mregex/ast/predicates/lookaround_predicate.hpp", "include/mregex/ast/nodes/alternation.hpp", "include/mregex/ast/nodes/sequence.hpp", "include/mregex/regex_capture.hpp"]}
{"id": "C64", "title": "Syntax errors are reported at the first character that cannot be right", "statement": "If parsing a pattern ends with a syntax error at a position, then the text before that position is the beginning of some accepted pattern, and no accepted pattern begins with the text up to and including the character there; an error at the end of the pattern means that it is the beginning of an accepted pattern but is not one itself. Conversely, the position of the error is determined by this. Whatever follows the reported character plays no role.", "quantifier": "for all byte sequences and all positions", "why_tests_cant": "Tests can look at error positions of some malformed patterns. That the reported prefix can always be completed, and that no completion exists beyond it, quantifies over all continuations of all texts.", "anchors": ["include/mregex/parser/parser.hpp", "include/mregex/parser/state.hpp", "include/mregex/grammar/grammar.hpp", "include/mregex/grammar/quantifiers.hpp"]}
{"id": "C65", "title": "All ways to look at a result show the same groups", "statement": "For a result of any method, for_each_group calls the function for the groups 0 to capture_count once each and in this order, transform_groups gives the values of the function for these groups in this order, structured bindings are these groups, and as_memory_owner keeps their texts. Comparing a result with a bool compares whether it has matched. Converting a result to a string_view and writing it to a stream give the text of group 0, writing a group gives its text, and its characters read one by one are those of its text; nothing of this is undefined.", "quantifier": "for all usable regexes, inputs, iterator categories, methods, functions and group numbers", "why_tests_cant": "Tests look at a few results. The order and number of calls and the absence of undefined reads have to hold for every number of groups and every function; the way std::tuple deduces its elements differs exactly for one group and functions that return pairs or tuples.", "anchors": ["include/mregex/utility/tuple.hpp", "include/mregex/match_result.hpp", "include/mregex/regex_capture.hpp"]}
{"id": "C66", "title": "Nesting of calls", "statement": "Every call of a method on a usable regex nests calls of the match functions of its nodes at most as deeply as a number that depends on the regex only, times the length of the input plus one. If nothing but tests of single characters is repeated without limit other than possessively (and, for single characters, the iterators are bidirectional), the nesting does not depend on the input at all. In general it does: (?:aa)* nests a call for every round.", "quantifier": "for all usable regexes, flags, iterator categories, methods and inputs", "why_tests_cant": "A test can overflow the stack for one input; that the nesting of a regex is bounded for all inputs, or linear, is a statement about all of them.", "anchors": ["include/mregex/ast/nodes/quantifiers/repetition.hpp", "include/mregex/ast/nodes/quantifiers/fixed_repetition.hpp", "include/mregex/ast/nodes/sequence.hpp", "include/mregex/regex_methods.hpp"]}
{"id": "C67", "title": "Number of calls", "statement": "If whatever a usable regex repeats without limit and not possessively has nothing to backtrack into, the number of calls of match functions a method makes is bounded by a polynomial in the length of the input, whose exponent is computed from the regex by recursion over its nodes (and is one larger for search). Every exponent is reached: for every k > 0 there is a usable regex with the exponent k (a*...a*b with k stars) such that texts of every length n need at least n^k calls up to a constant factor, n^(k+1) with search. In general no polynomial bounds it: (?:a+)+b makes at least 2^n calls for n letters a, with every method.", "quantifier": "for all usable regexes, flags, iterator categories, methods and inputs; the lower bound for all n", "why_tests_cant": "Tests measure some inputs; growth is a statement about all lengths and, for the upper bound, about all inputs of each length.", "anchors": ["include/mregex/ast/nodes/quantifiers/repetition.hpp", "include/mregex/ast/nodes/sequence.hpp", "include/mregex/ast/nodes/alternation.hpp", "include/mregex/regex_methods.hpp"]}
{"id": "C68", "title": "Carrying out a regex", "statement": "Every call of every method on every usable regex - references, nested lookarounds, atomic groups, possessive quantifiers and groups in any combination - returns exactly what carrying out the procedure of the regex gives: verdict, range and every group. The procedure is a tree of steps (note what a group took part with, ask what a group holds, propose an end) built from the pattern alone, without iterators, contexts, recursion limits or special cases for simple nodes, and it is carried out by a loop that accepts the first proposed end the method likes. The same holds for each call of a generator.", "quantifier": "for all usable regexes (including references), flags, iterator categories, methods and inputs", "why_tests_cant": "A full functional specification of the matcher for all patterns, inputs and group contents; tests only sample pattern and input combinations.", "anchors": ["include/mregex/ast/nodes/terminals/backref.hpp", "include/mregex/ast/nodes/capture.hpp", "include/mregex/ast/nodes/quantifiers/repetition.hpp", "include/mregex/ast/nodes/alternation.hpp", "include/mregex/ast/nodes/sequence.hpp", "include/mregex/regex_methods.hpp"]}
{"id": "C69", "title": "Capturing groups that nothing refers to only record", "statement": "In any usable regex, references included, making groups that nothing refers to plain parentheses, and giving the other groups new numbers and names that the references follow, changes neither the verdict nor the range of any call, nor the results of generators, tokenize and find_all, and the groups that stay hold the same, also after a failure - provided that no alternative of an alternation becomes a single character. Without this condition it is false: (?:(?:(a)|a)(?:\\2c|)|(b))*$ matches bac, but not without its first group. If all groups stay groups, the condition is not needed.", "quantifier": "for all usable regexes, renumberings, flags, iterator categories, methods and inputs", "why_tests_cant": "The claim relates two programs on all inputs; the exception was found by the proof.", "anchors": ["include/mregex/ast/nodes/capture.hpp", "include/mregex/ast/nodes/terminals/backref.hpp", "include/mregex/ast/nodes/alternation.hpp", "include/mregex/ast/nodes/trivially_matchable.hpp"]}
{"id": "C70", "title": "Quantifiers as branches and copies", "statement": "In any usable regex, groups and references included, and at any place of it (also read backwards inside a lookbehind), these rewritings change neither usability nor any result of any method, generator range or group: X? is (?:X|), X?? is (?:|X), X?+ is (?>X|); X{n,n+k} is X{n}X{0,k} and X{n,} is X{n}X* in every mode; X{0,k+1} is (?:XX{0,k}|), lazily (?:|XX{0,k}?), possessively (?>XX{0,k}+|); X* is (?:XX*|), lazily (?:|XX*?), possessively (?>XX*+|), if X reads at least a character; X{n,m}+ is (?>X{n,m}) (unbounded only if X reads a character) and (?>X{n,m}?) is (?>X{n}); X{k}{j} is X{jk}; (?>(?>X)) is (?>X); (?=(?>X)) is (?=X), likewise for lookbehinds; (?:X|Y)Z is XZ|YZ unless the last branch is a single character; anchors may be repeated and reordered. What is copied must not contain groups. With the ungreedy flag the roles of greedy and lazy swap. Chains may mix these steps with those of C59.", "quantifier": "for all regexes related by a chain of rewritings, flags, iterator categories, methods and inputs", "why_tests_cant": "Each law relates two programs for all sub-expressions, contexts and inputs; the library implements the two sides by different code paths (loops with several optimised variants against recursion over nodes).", "anchors": ["include/mregex/ast/nodes/quantifiers/repetition.hpp", "include/mregex/ast/nodes/alternation.hpp", "include/mregex/ast/nodes/sequence.hpp", "include/mregex/ast/nodes/lookaround.hpp"]}
{"id": "C71", "title": "Static strings and range utilities", "statement": "A static string made from a literal has the length of its text and exactly its characters - by index, in loops, as string_view, when printed and as tokens of a pattern - embedded null characters included and the terminator excluded. A string made from a pack of characters (a name read by the parser) is identical to the one of the literal with these characters, and different texts give different strings, so looking up a group by the type of its name is looking it up by the text of the name. The forward-iterator loop and the random-access subtraction of distance_less_than agree in both directions, and a reversed view visits the characters of a range once each in the opposite order without leaving the range.", "quantifier": "for all texts (of any length, with any bytes), names, lists of group names, positions, distances, ranges and iterator categories", "why_tests_cant": "Non-type template parameters can be sampled only one instantiation at a time; the claim covers all lengths and contents, in particular the empty string and embedded null characters.", "anchors": ["include/mregex/utility/static_string.hpp", "include/mregex/utility/reversed_range_view.hpp", "include/mregex/utility/distance.hpp", "include/mregex/parser/lexer.hpp", "include/mregex/symbols/names.hpp"]}
{"id": "C72", "title": "Text that has been passed does not matter", "statement": "For every usable regex without ^, \\A, word boundaries and lookbehinds - references, groups, lookaheads, $, \\Z, atomic groups and possessive quantifiers allowed - a call that a generator makes after having passed a text gives what a fresh call gives on the text that is left, with all groups shifted, also the groups left behind by a failure. So after a first non-empty match, the results visited by tokenize and find_all are those of a loop over the text behind the match, shifted.", "quantifier": "for all such regexes, flags, iterator categories, methods and splittings of the input", "why_tests_cant": "Relates runs on two different inputs of unbounded length for all patterns; the library passes the beginning of the whole text to every call, so the independence has to be shown for every node.", "anchors": ["include/mregex/match_result_generator.hpp", "include/mregex/utility/input_range_adapter.hpp", "include/mregex/ast/nodes/terminals/backref.hpp", "include/mregex/regex_methods.hpp"]}
{"id": "C73", "title": "Without references, the accepted texts are a regular language", "statement": "For every usable regex without references - with greedy, lazy and possessive quantifiers, atomic groups, anchors, word boundaries, lookaheads and lookbehinds nested in any way, under any flags - the set of texts for which match, match_prefix or search reports a match is a regular language: there is a finite automaton that gives the verdict. With references that is not so: (.*)\\1 under dotall accepts exactly the texts that are a text written twice, which no finite automaton does.", "quantifier": "for all usable regexes without references, flags, iterator categories and methods; over all texts of any length", "why_tests_cant": "Whether a language is regular is a statement about all texts at once; tests look at finitely many texts, and every finite set of texts is regular.", "anchors": ["include/mregex/regex.hpp", "include/mregex/ast/nodes/quantifiers/repetition.hpp", "include/mregex/ast/predicates/lookaround_predicate.hpp", "include/mregex/ast/nodes/alternation.hpp", "include/mregex/ast/nodes/sequence.hpp", "include/mregex/ast/nodes/terminals/backref.hpp"]}
{"id": "C74", "title": "Every regular language has a pattern", "statement": "For every regular expression of the theory of formal languages over bytes (empty set, empty text, letters, union, concatenation, star), hence for every regular language, there is a pattern that the parser accepts, that can be used with every iterator category, and for which each of match, match_prefix and search reports a match for exactly the texts of the language. So regexes without references accept the regular languages, no less and no more.", "quantifier": "for all regular expressions, all finite automata over bytes, iterator categories and methods; over all texts", "why_tests_cant": "Existence of a pattern for each of infinitely many languages, each with infinitely many texts.", "anchors": ["include/mregex/regex.hpp", "include/mregex/parser/parser.hpp", "include/mregex/ast/nodes/quantifiers/repetition.hpp", "include/mregex/ast/nodes/alternation.hpp", "include/mregex/ast/nodes/set.hpp"]}
{"id": "C75", "title": "A lookbehind is a lookahead in the reversed text", "statement": "(?<=X) and (?<!X) at a position of a text do what (?=X') and (?!X') do at the corresponding position of the reversed text, where X' is the mirrored body (sequences reversed, lookarounds turned round, everything else as it is): same verdict, and the groups hold the mirrored ranges with the reversed text. This holds for all bodies, with anchors, quantifiers of all kinds, groups, nested lookarounds and references, as long as no reference is inside two lookbehinds. In particular ^ in a lookbehind tests the end and $ the start.", "quantifier": "for all usable regexes of this form without references two lookbehinds deep, all flags, texts and positions", "why_tests_cant": "All bodies, texts and positions; tests of lookbehinds use a few literal bodies, where the mirror image cannot be told from the intended meaning.", "anchors": ["include/mregex/ast/inversion.hpp", "include/mregex/ast/predicates/lookaround_predicate.hpp", "include/mregex/ast/nodes/terminals/backref.hpp", "include/mregex/ast/predicates/anchor_predicates.hpp"]}
{"id": "C76", "title": "Searching is skipping", "statement": "search from any position of a text does what match_prefix of the regex with [\\x00-\\xff]*? in front does there: the same verdict, the same end of the match, the same place to continue, and the same contents of all groups except the whole match (which then includes the skipped characters), also after a failed call.", "quantifier": "for all usable regexes (with references, groups, lookarounds and possessive quantifiers), flags, texts and start positions", "why_tests_cant": "All regexes, texts and positions, and the contents of the groups after attempts that failed; a test compares a few searches with expected strings.", "anchors": ["include/mregex/regex_methods.hpp", "include/mregex/ast/nodes/quantifiers/repetition.hpp", "include/mregex/match_result_generator.hpp"]}
{"id": "C77", "title": "Flags are only notation", "statement": "For every regex with flags (with icase only if it contains no references) there is a regex without flags that can be used with the same inputs, has the same groups, and gives the same results with all methods, tokenize and find_all: characters, ranges, sets and the wildcard become the sets of the characters that they accept under the flags; lazy and greedy quantifiers are exchanged for ungreedy; ^ and $ become (?<![^\\n\\r]) and (?![^\\n\\r]) for multiline, and the other way round in the body of a lookbehind. For each pattern with flags there is a pattern that does the same without.", "quantifier": "for all usable regexes (patterns), all sets of flags, all texts, all methods and all rounds of the generators", "why_tests_cant": "The claim ranges over all regexes and texts and says that two different code paths (flag tests in the nodes, and other nodes) agree everywhere, including the contents of groups after failed attempts.", "anchors": ["include/mregex/regex_flags.hpp", "include/mregex/regex.hpp", "include/mregex/ast/nodes/terminals/literal.hpp", "include/mregex/ast/nodes/terminals/range.hpp", "include/mregex/ast/nodes/terminals/wildcard.hpp", "include/mregex/ast/nodes/set.hpp", "include/mregex/ast/predicates/anchor_predicates.hpp", "include/mregex/ast/nodes/quantifiers/repetition.hpp"]}
{"id": "C78", "title": "The text that is matched is the text that was passed", "statement": "Whatever is passed to match, match_prefix and search, a string literal, an array, a pointer, a string, a string view, or another range of characters of any character type, the results are those for the sequence of the characters that it holds (for literals without the terminating zero).", "quantifier": "for all usable regexes, methods, and all arguments with all contents", "why_tests_cant": "All texts and all kinds of arguments, including zeros in literals, arrays without a terminating zero, and code units above 255, which the tests never pass.", "anchors": ["include/mregex/regex.hpp", "include/mregex/utility/concepts.hpp", "include/mregex/regex_capture.hpp", "include/mregex/regex_capture_storage.hpp", "include/mregex/ast/nodes/terminals/literal.hpp", "include/mregex/ast/nodes/terminals/backref.hpp"]}
{"id": "C79", "title": "Anchored searches", "statement": "match_prefix of a regex R gives the verdict and the groups of search with \\AR, and match those of search with \\AR\\Z, also with multiline; \\AR and \\AR\\Z can be used wherever R can. From positions after the start of the text no method of \\AR finds anything and no group is touched, so its generators give at most one result.", "quantifier": "for all regexes that can be used, iterator categories, flags, texts, and (for the last part) all methods and positions", "why_tests_cant": "Three methods with separate code are compared for all regexes and all texts; in particular for the groups left behind by attempts at later positions, which no test looks at.", "anchors": ["include/mregex/regex_methods.hpp", "include/mregex/regex.hpp", "include/mregex/ast/nodes/sequence.hpp", "include/mregex/match_result_generator.hpp"]}
{"id": "C80", "title": "Modes that do not matter", "statement": "If a quantified single character is followed by something that cannot begin with such a character (another character that excludes it under the flags, an end anchor, a sequence beginning with such, alternatives or at least one round of such, a lookahead), then greedy, lazy and possessive quantifiers give the same verdicts, the same groups and the same elements of tokenize and find_all, at every place of the expression, in lookbehinds correspondingly with what comes before.", "quantifier": "for all usable regexes, flags, iterator categories, places of the expression, bounds, methods, texts", "why_tests_cant": "The three modes are implemented by separate loops; their agreement is claimed for all expressions, all bounds and all texts.", "anchors": ["include/mregex/ast/nodes/quantifiers/repetition.hpp", "include/mregex/ast/nodes/sequence.hpp"]}
{"id": "C81", "title": "Lengths fit", "statement": "From an expression one can read off a least and a greatest length of the texts it takes: one for a character, a set, a range or the wildcard, none for assertions, the sums for a sequence, the smaller and the larger one for an alternation, the products with the bounds for a repetition, nothing to no limit for a backreference. Whatever match, match_prefix, search and any number of calls to a generator deliver, in any flags and with any kind of iterator, (1) the match lies in the text and its length is within the bounds of the expression; (2) each group, whether the call succeeded or not, is empty or has a length within the bounds of an expression that is written inside a group with this number. Hence (3) a text shorter than the least length is matched by no method, and (4) a text longer than the greatest length is not matched by match.", "quantifier": "for all regexes that compile (Regex.Ok), all flags, all texts, all iterator categories, all methods, any number of generator calls", "why_tests_cant": "Tests compare particular matches; that no path through nested quantifiers, lookarounds and backreferences delivers a range or a group of an impossible length is a statement about all of them.", "anchors": ["include/mregex/regex_methods.hpp", "include/mregex/ast/nodes/quantifiers/repetition.hpp", "include/mregex/ast/nodes/sequence.hpp", "include/mregex/ast/nodes/alternation.hpp", "include/mregex/ast/nodes/capture.hpp"]}
{"id": "C82", "title": "Groups lie as they are written", "statement": "In the result of a successful match, match_prefix, search or generator call: (a) a non-empty group that is written outside of lookarounds and possessive or atomic parts lies inside the overall match; (b) if moreover every group j is written inside a group i, and no part with both can be iterated, then whenever group j is non-empty, group i is non-empty and contains it; (c) if the groups i are written before the groups j in a sequence, and no part with both can be iterated, then non-empty groups i and j do not overlap and i comes first. This is true for all flags, with references, and when alternatives use the same numbers again.", "quantifier": "all syntax trees accepted by the library, all flag lists, all iterator categories, all inputs, all generator states", "why_tests_cant": "It relates positions of two groups in every result over unboundedly many expressions and inputs; group contents survive failed attempts, so a counterexample would need a particular combination of backtracking and retries.", "anchors": ["include/mregex/ast/nodes/capture.hpp", "include/mregex/ast/nodes/sequence.hpp", "include/mregex/ast/nodes/alternation.hpp", "include/mregex/ast/nodes/quantifiers/repetition.hpp", "include/mregex/regex_methods.hpp"]}
{"id": "C83", "title": "Characters that an expression does not tell apart", "statement": "If two inputs have the same length, the characters at the same place pass the same tests among those written in the regex (literals, ranges, sets and negations, the wildcard, ends of lines with multiline, word characters with \\b), and, if the regex has references, the same places hold equal characters, then every method and generator call gives the same verdict, the same groups and the same next state for both, and tokenize and find_all visit the same ranges.", "quantifier": "all syntax trees accepted by the library, all flag lists, all iterator categories, all pairs of inputs, all generator states", "why_tests_cant": "A relational statement about pairs of runs on arbitrary inputs; a dependence on anything but the written tests would show only for particular characters.", "anchors": ["include/mregex/ast/nodes/terminals/literal.hpp", "include/mregex/ast/nodes/terminals/range.hpp", "include/mregex/ast/nodes/terminals/wildcard.hpp", "include/mregex/ast/nodes/set.hpp", "include/mregex/ast/nodes/negated.hpp", "include/mregex/ast/nodes/terminals/backref.hpp: equals", "include/mregex/ast/nodes/terminals/anchors.hpp"]}
{"id": "C84", "title": "Every match has a derivation", "statement": "For every usable regex whose lookbehinds are read correctly (no anchors in them, nested lookarounds in them reference-free and palindromic) - references, possessive quantifiers, atomic groups, groups and lookarounds in any combination, any flags - every result of every call has a derivation: the match is taken apart along the regex (branches, iteration counts, looks ahead and behind); a reference takes nothing, or a copy (up to case under icase) of some text of the input for which a group with this number has a derivation itself; negated assertions do not hold if they contain neither references nor possessive quantifiers. The text of every non-empty group has a derivation too. So references and possessive quantifiers never add anything: if they do not occur in negated assertions, whatever is found is matched by the regex read as an ordinary one in which references stand for any text; and if nothing has a derivation, nothing is found.", "quantifier": "all usable regexes with such lookbehinds, flags, iterator categories, methods, texts, states of generators", "why_tests_cant": "What failed attempts leave behind in groups can be referred to later; tests see few of the orders in which groups are set, cleared and referred to.", "anchors": ["include/mregex/regex_methods.hpp", "include/mregex/ast/nodes/capture.hpp: capture_matched_range", "include/mregex/ast/nodes/terminals/backref.hpp", "include/mregex/ast/nodes/quantifiers/repetition.hpp", "include/mregex/match_result_generator.hpp"]}
{"id": "C85", "title": "What a match begins with, ends with and contains", "statement": "Whatever any method or generator finds, with any regex that can be used and any flags, is matched by the regex without its lookarounds and negated assertions, in which references stand for any text. So a match that is not empty begins with a character from a set that can be read off the regex, ends with a character from another such set, and contains every kind of character that the regex needs. A regex that cannot match the empty text finds nothing in a text without a character that can begin a match, no regex finds anything in a text without a character that it needs, and a search reports no non-empty match before the first character that can begin one.", "quantifier": "for all usable regexes (with references, lookarounds, possessive quantifiers, any flags), texts, methods, positions of a generator", "why_tests_cant": "The sets are computed from the regex; a test checks single regexes. A repetition or alternation that takes a character it must not take shows up only for particular nestings and texts.", "anchors": ["include/mregex/regex_methods.hpp", "include/mregex/match_result_generator.hpp", "include/mregex/ast/nodes/sequence.hpp", "include/mregex/ast/nodes/alternation.hpp", "include/mregex/ast/nodes/quantifiers/repetition.hpp", "include/mregex/ast/nodes/terminals/backref.hpp", "include/mregex/ast/nodes/lookaround.hpp", "include/mregex/ast/nodes/negated.hpp"]}
{"id": "C86", "title": "Fields between fixed texts are taken apart exactly", "statement": "A regex of the form `t0(F1)t1(F2)t2...(Fn)tn`, where each field Fi is a quantified class of characters (with any bounds and any mode) or an expression without groups, references, assertions and possessive quantifiers, and where the text after each field begins with a character that the field cannot contain (after the last field there may be nothing): `match` succeeds exactly for the texts that consist of the fixed texts and admitted values; the values are determined by the text; and group i holds exactly the i-th value. The date, log line, 'Today is' and name/age/country patterns of the README and the examples parse to such regexes.", "quantifier": "all numbers of fields, all fixed texts, all classes, bounds, modes and field expressions that meet the separation, all flags, all iterator categories, all texts", "why_tests_cant": "The tests and examples take apart one date and one log line; that no other split of any text is possible, and that no possessive or lazy field takes a character too many or too few, is a statement about all texts.", "anchors": ["include/mregex/regex_methods.hpp", "include/mregex/ast/nodes/capture.hpp", "include/mregex/ast/nodes/quantifiers/repetition.hpp", "include/mregex/ast/nodes/sequence.hpp", "include/mregex/match_result.hpp", "README.md", "example/structured_bindings.cpp", "example/forward_list.cpp", "example/extracting_captures.cpp", "example/optional.cpp"]}
{"id": "C87", "title": "The regexes for words find exactly the words", "statement": "For every class of characters c, every mode of the quantifier and any flags, `find_all` with `c+(?!c)` visits exactly the longest stretches of characters of the class, from left to right; without the lookahead the same holds for the quantifiers that prefer more; `(?<!c)c{lo,hi}(?!c)` and `\\b\\w{lo,hi}\\b` visit exactly those whose length is within the bounds. In particular `\\w+?(?!\\w)` (example/regex_range.cpp) finds exactly the words of every text, and `\\b\\w{4,5}+\\b` (example/regex_searcher.cpp) exactly the words of four or five characters.", "quantifier": "all classes, modes, bounds from 1 on, flags, iterator categories for which the regex is usable, and all texts", "why_tests_cant": "The tests look at one or two sentences. That no word is skipped, split, joined or found twice in any text, with lazy and possessive quantifiers alike, is a statement about all texts.", "anchors": ["include/mregex/match_result_generator.hpp", "include/mregex/regex_methods.hpp", "include/mregex/ast/nodes/quantifiers/repetition.hpp", "include/mregex/ast/nodes/lookaround.hpp", "include/mregex/ast/nodes/terminals/anchors.hpp", "example/regex_range.cpp", "example/regex_searcher.cpp"]}
{"id": "C88", "title": "What README.md says about particular patterns and expressions", "statement": "The expressions in README.md and in example/using_expressions.cpp are equivalent to the patterns beside them, and the notes on the syntax in README.md hold: `\\c` is the same as `c`, `[\\12]` the same as `[12]`; `[]` never matches anything; `[^]` matches every character; `a{` and `a{+` take the brace literally, `a{1+` is a syntax error; `(?:\\1)0` and `\\1[0]` separate a reference from a digit.", "quantifier": "all texts, flags, methods and iterator categories (for the sets and the expressions)", "why_tests_cant": "Equivalence of an expression and a pattern is a statement about all texts; the example only runs the expression on one URL and never the pattern.", "anchors": ["README.md", "example/using_expressions.cpp", "include/mregex/ast/nodes/set.hpp", "include/mregex/ast/nodes/negated.hpp"]}
{"id": "C89", "title": "Patterns can be combined by and, or and not", "statement": "For patterns p and q without references and named groups, with all flags and iterators, `(?:(?=(?:p)\\Z)(?:q))` accepts exactly the texts that both accept, `(?:(?:p)|(?:q))` those that one of them accepts and `(?:(?!(?:p)\\Z)[^]*)` those that p does not accept; the result is again such a pattern, so every Boolean formula of patterns is a pattern. Two patterns accept the same texts if and only if one pattern made of both accepts none. What `match_prefix` and `search` accept with p is what `match` accepts with `(?:p)[^]*` and `[^]*(?:p)[^]*`.", "quantifier": "all patterns without references (and, for formulas, without names), formulas of any depth, all flags, iterator categories and texts", "why_tests_cant": "Statements about all patterns and all texts; lookaheads over whole patterns that contain possessive quantifiers, lookbehinds and captures are not covered by any list of examples.", "anchors": ["include/mregex/ast/nodes/lookaround.hpp", "include/mregex/ast/nodes/negated.hpp", "include/mregex/ast/nodes/alternation.hpp", "include/mregex/regex_methods.hpp"]}
{"id": "C90", "title": "Parts of patterns are interchangeable exactly if they always make the same choices", "statement": "Let X and Y be parts of patterns without groups and references. If, from every position of every text and in every way of reading that the iterators allow (forwards, and for bidirectional iterators also backwards and mirrored), X and Y prefer the same end of a match under every condition on that end, then exchanging X for Y inside any larger pattern without references changes neither the verdict nor the matched range of match, match_prefix or search; with groups and references around (outside of lookarounds and possessive quantifiers) the groups hold the same texts too. Conversely, if the choices differ anywhere, some larger pattern without groups, made of standard operators, tells X and Y apart by the verdict of search. Parts that do the same step by step may be exchanged everywhere, with references and groups anywhere. How often the same position is offered is irrelevant without references but observable with them.", "quantifier": "all parts X, Y, all surrounding patterns, all flags, iterator categories, methods and texts", "why_tests_cant": "It is an equivalence between a property of two parts on all texts and the behaviour of infinitely many surrounding patterns; tests can neither try all surroundings nor show that a distinguishing one exists whenever the choices differ.", "anchors": ["include/mregex/ast/nodes/sequence.hpp", "include/mregex/ast/nodes/alternation.hpp", "include/mregex/ast/nodes/quantifiers/repetition.hpp", "include/mregex/ast/nodes/lookaround.hpp", "include/mregex/ast/predicates/lookaround_predicate.hpp", "include/mregex/regex_methods.hpp"]}
{"id": "C91", "title": "Searching a text is searching its lines", "statement": "Let no character test of a regex accept a separator (such as a line break), let it have no \\A and \\Z, ^ and $ only with multiline if the separators are line breaks, word boundaries only if no separator is a word character, and references that ignore case only if no separator is a letter. Then an attempt from any position of a line of a longer text does what it does in the line alone: the same verdict, the same end, the same ranges of all groups, also those left behind by a failure; lookaheads, lookbehinds and references are allowed. If moreover no reference leads to a group inside of a lookaround, negation, atomic group or possessive quantifier, search on the text finds what it finds in the first line in which it finds something, and find_all finds in the text what it finds in the lines one after the other (nothing empty being found in a line before the last), with the same texts in all groups outside of such parts.", "quantifier": "all usable regexes, flags and iterator categories, all lists of separators, all texts with any number of lines of any length, all positions", "why_tests_cant": "Whether a regex looks across a line end depends on every combination of its parts with what is behind the line; the texts, lines and numbers of lines are unbounded.", "anchors": ["include/mregex/match_result_generator.hpp", "include/mregex/regex_methods.hpp", "include/mregex/ast/predicates/anchor_predicates.hpp", "include/mregex/ast/nodes/terminals/backref.hpp", "include/mregex/ast/nodes/lookaround.hpp"]}
{"id": "C92", "title": "What an expression says: words and memories", "statement": "Read an expression as a description of the words that it says: a group notes the word that it has said in a memory, a reference says what the memory has for its group. For every usable regex without anchors, lookarounds and possessive quantifiers (whose references are to groups that cannot be tried again): match() succeeds exactly on the texts that the regex says, match_prefix() exactly if it says a prefix, search() exactly if it says some part of the text, and then it reports one that begins at the first position where one begins. The texts of the groups are always those of a memory with which the reported text is said. So if a text is said in one way only, the groups are determined by it, and regexes that differ in the modes of their quantifiers (and flags other than icase, dotall) give the same groups. For ambiguous texts they need not.", "quantifier": "All regexes of the fragment, flags, iterator categories, methods and texts", "why_tests_cant": "Tests compare the groups with expected values for chosen patterns. That no preference, backtracking or leftover of an abandoned attempt can produce groups outside of the declarative meaning is a statement about all expressions and texts.", "anchors": ["include/mregex/regex_methods.hpp", "include/mregex/ast/nodes/capture.hpp", "include/mregex/ast/nodes/terminals/backref.hpp", "include/mregex/ast/nodes/quantifiers/repetition.hpp", "include/mregex/ast/nodes/alternation.hpp", "include/mregex/ast/nodes/sequence.hpp"]}
{"id": "C93", "title": "The expression of example/url_parsing.cpp takes every URL apart", "statement": "For the pattern of example/url_parsing.cpp, with any flags and iterators, and every text: match() succeeds exactly if the text is the text of a URL schema://[user[:pass]@]host[:port][/path]?query (authority and resource optional) with parts of the right characters. There is only one such URL for a text, and the groups 1 to 7 hold its schema, user, password, host, port, path and query; the groups of missing parts are empty.", "quantifier": "All texts, flags, iterator categories", "why_tests_cant": "The example shows a single URL. There are infinitely many, with 16 combinations of missing parts, and texts that are nearly URLs.", "anchors": ["example/url_parsing.cpp", "include/mregex/regex_methods.hpp", "include/mregex/parser/parser.hpp", "include/mregex/ast/nodes/capture.hpp"]}
{"id": "C94", "title": "Patterns with references decide satisfiability", "statement": "For every formula in conjunctive normal form with three literals per clause over the variables 0..n-1, take the pattern that has '(x?)(x?),' for every variable and then '(?:\\i|\\j|\\k),' for every clause, where the numbers are those of the groups for the literals (2v+1 for a variable v, 2v+2 for its negation). The pattern is accepted, the regex can be used with every input that is at least bidirectional, and match on the text 'x,x,...x,' (one 'x,' per variable and clause) succeeds exactly if the formula is satisfiable. If so, the groups of the result are a solution. The pattern is not essentially longer than the formula.", "quantifier": "all numbers of variables n > 0 with 2n < 2^64, all formulas over them, all flags, all bidirectional or random access inputs", "why_tests_cant": "The statement is about arbitrarily large formulas; success or failure depends on the search through all 2^n assignments, with references to groups that were undone and set again many times.", "anchors": ["include/mregex/ast/nodes/terminals/backref.hpp", "include/mregex/ast/nodes/capture.hpp", "include/mregex/ast/nodes/alternation.hpp", "include/mregex/ast/nodes/sequence.hpp", "include/mregex/ast/nodes/quantifiers/repetition.hpp", "include/mregex/regex_methods.hpp"]}
{"id": "C95", "title": "Programs that iterate", "statement": "Take a usable regex, a text and the method of tokenize or find_all, and any program that makes ranges over them, copies ranges, takes begin(), copies or default constructs iterators, dereferences, increments and compares with end(). What the program sees is what counting says: there is one sequence of elements, the results of the successive calls of the generator, none of which is a match after the first that is not; a range is a number of elements passed; all iterators of a range share that number; begin() gives the current element, not the first; a copy of a range has its own number, equal at the time of copying; *it++ gives the element before the step; behaviour is undefined exactly for iterators that have no range. In particular, a loop left at element j and a second loop over the same range see j twice. (False for *it++, which does not compile, and for `auto other(range)` with a non-const range, which selects the forwarding constructor and skips an element.)", "quantifier": "all programs of any length over any number of ranges and iterators, all usable regexes, methods, categories and texts", "why_tests_cant": "The programs are unbounded and the iterators alias each other; tests only contain single range-based for loops. The post-increment is a template member that is never instantiated there, and ranges are never copied.", "anchors": ["include/mregex/utility/input_range_adapter.hpp", "include/mregex/match_result_generator.hpp", "include/mregex/regex.hpp"]}
{"id": "C96", "title": "Tokens", "statement": "The tokens of a text are the preferred matches, each beginning where the one before it ends, until there is no match at that place or until an empty one. In particular, for a regex c1+|...|ck+ with classes of characters and quantifiers that prefer more, every token is all of the stretch of characters of the first class that its first character belongs to, and the tokens stop only at a character that belongs to no class. If every character of the text belongs to exactly one of the classes, the tokens are side by side from the beginning to the end of the text, and they are exactly the longest stretches of characters of one class: \\w+|\\W+ takes every text apart into its words and what is between them.", "quantifier": "all usable regexes without references or whose references are traceable, all texts of any length, all categories; all numbers of classes, all modes", "why_tests_cant": "The number of tokens, the length of the text and the number of classes are unbounded; that nothing is left out and that no token is too short is a statement about all places of the text.", "anchors": ["include/mregex/regex.hpp", "include/mregex/match_result_generator.hpp", "include/mregex/regex_methods.hpp", "include/mregex/ast/nodes/alternation.hpp", "include/mregex/ast/nodes/quantifiers/repetition.hpp"]}
{"id": "C97", "title": "Instantiations of the parser", "statement": "What the compiler has to instantiate to parse a pattern: the number of function templates of the parser is linear in the length of the pattern (at most 7 per character and 2 more), the AST has at most 5 nodes per character and 1 more, and the recursion between two reads of a character is bounded by a constant that does not depend on the pattern, which is what the fold over the characters is there for (state.hpp:55-56). (False for the recursion: a literal brace leaves three symbols on the stack and a range in a set leaves one, all of which are only removed by the recursion at the end. It is bounded by 15 + 6 n for n braces and dashes.)", "quantifier": "all patterns, also those that are rejected", "why_tests_cant": "Compilers have limits for the depth of template recursion (900 for GCC, 1024 for Clang) and a test can only show that the patterns it contains are below them.", "anchors": ["include/mregex/parser/state.hpp", "include/mregex/parser/parser.hpp", "include/mregex/grammar/grammar.hpp", "include/mregex/grammar/quantifiers.hpp", "include/mregex/ast/build.hpp"]}
{"id": "C98", "title": "Programs that hold results", "statement": "group, get, for_each_group, as_optional and content keep the value category and constness of the object they are called on, so that expiring objects are moved and others copied. For any program that calls methods on a named input or on temporaries, makes owners of views, copies and moves results, groups and texts, converts to optionals, writes to owned texts, changes or destroys the input and prints: a variable that the program does not give away or write to stays what it is, whatever else happens; results with views are never changed and show the input as it is; what as_memory_owner or a call on a temporary returns shows the texts of that time for ever. If there is no memory for a copy, an exception is thrown. (False for content(): for an expiring capture it is an lvalue, for a const one it does not compile. False for the exception: as_memory_owner, calls on temporaries and as_optional() const && terminate the program, because the copies are made in functions declared noexcept.)", "quantifier": "all programs of any length over any number of variables, all regexes, methods, categories and texts, all ways in which copies can fail", "why_tests_cant": "Programs, and the points at which memory runs out, are unbounded; the tests use no expiring results except for calls on temporaries, never instantiate content() const &&, and run with enough memory.", "anchors": ["include/mregex/match_result.hpp", "include/mregex/regex_capture.hpp", "include/mregex/utility/tuple.hpp", "include/mregex/regex.hpp"]}
{"id": "C99", "title": "Instantiations of the matcher", "statement": "For a call of match, match_prefix or search, finitely many functions have to be instantiated: although every continuation is a closure type of its own, loops call themselves with the same types. Their number is polynomial in the length of the pattern. (False: a + in front of which there is a group doubles what is instantiated for the group, so that k nested ones need 2^k functions for 5k+2 characters; {0,n} needs n functions, so that the number grows like the value of n and not like the length of its digits.)", "quantifier": "all patterns and trees of any size and nesting, both kinds of calls, all flags, all categories of iterators", "why_tests_cant": "A test is compiled for one pattern; that the compiler ends, and how much it has to do, for every pattern can not be seen from those that are compiled.", "anchors": ["include/mregex/ast/nodes/quantifiers/repetition.hpp", "include/mregex/ast/nodes/quantifiers/fixed_repetition.hpp", "include/mregex/ast/nodes/sequence.hpp", "include/mregex/ast/nodes/alternation.hpp", "include/mregex/ast/predicates/lookaround_predicate.hpp", "include/mregex/utility/continuations.hpp", "include/mregex/regex_methods.hpp"]}
{"id": "C100", "title": "What a pattern means", "statement": "The text of a pattern without references determines a function from flags, text and position to the positions where a match can stop, in order of preference, composed from the meanings of its parts: characters, sets, classes, groups, quantifiers, assertions, alternatives. A pattern with a meaning is accepted by the parser; match, match_prefix and search report exactly what the meaning says (the whole text; the preferred stop; the preferred stop at the first position that has one), and do not match if it says nothing; loops over find_all and tokenize visit exactly the ranges that iterating the meaning gives, up to the first empty one. Every accepted usable pattern without references whose lookbehinds contain no anchors, lookarounds and possessive parts has a meaning, and only one; without named groups a pattern with a meaning is usable.", "quantifier": "all patterns of the kind described, of any length and nesting; all flags, texts, categories of iterators, all three methods", "why_tests_cant": "Tests fix a pattern and a text; that parser and matcher together implement the reading of the pattern is a statement on infinitely many patterns and texts at once.", "anchors": ["include/mregex/parser/parser.hpp", "include/mregex/grammar/grammar.hpp", "include/mregex/ast/build.hpp", "include/mregex/regex_methods.hpp", "include/mregex/regex.hpp", "README.md"]}
{"id": "C101", "title": "What has not been looked at does not matter", "statement": "A call looks at certain positions of the text, which can be told by carrying out the regex while asking for each character (asking at the end of the text means asking whether it ends there). For every other text that agrees at these positions the call returns the same verdict, match and group contents, and a generator goes on from the same position; in particular a call that has not asked for the end of the text gives the same if more text follows, and k calls of a generator give the same k results. For expressions without references and without unbounded repetition forwards, the expression determines a number m of characters: a prefix is decided by the m characters from the current position on, and a match found m or more characters before the end of the text stays when the text is continued.", "quantifier": "all usable regexes, all flags, texts, continuations, positions, all three methods, generators, any number of calls", "why_tests_cant": "Independence of the unread part is a statement on all texts that agree on the part that was read.", "anchors": ["include/mregex/regex_methods.hpp", "include/mregex/match_result_generator.hpp", "include/mregex/ast/nodes/assertion.hpp", "include/mregex/ast/nodes/terminals/literal.hpp", "include/mregex/ast/nodes/terminals/backref.hpp"]}
{"id": "C102", "title": "A reference directly after its group", "statement": "Where a reference, by number or by name, directly follows the group it refers to, it can be written without the reference: a lookahead that captures followed by the reference, (?=(X))\\k, is the atomic group (?>(X)); a group around a text w followed by the reference, (w)\\k, is (w)w, also with icase. Every method gives the same verdict and match, and all groups hold the same, also after a failure; tokenize and find_all visit the same. This holds at any place that is not inside a lookbehind, under any quantifiers, alternatives, groups and lookaheads, and with other references to the same group. If nothing else refers to the group, it can be dropped, which gives (?>X). Forward iterators have atomic groups but no references; in a lookbehind the reference is read before its group, and the second law fails.", "quantifier": "all usable regexes, all sub-expressions X and texts w, all places outside of lookbehinds, all flags, inputs, methods, iterator categories", "why_tests_cant": "X, the place and the input are arbitrary.", "anchors": ["include/mregex/ast/nodes/lookaround.hpp", "include/mregex/ast/predicates/lookaround_predicate.hpp", "include/mregex/ast/nodes/terminals/backref.hpp", "include/mregex/ast/nodes/capture.hpp", "include/mregex/ast/nodes/sequence.hpp"]}
{"id": "C103", "title": "Questions about all texts are answered by the texts up to a length", "statement": "From every regex without references a number can be read off. If some text has given verdicts under any number of calls of match, match_prefix and search with such regexes (with any flags, modes, lookarounds, anchors, possessive and atomic parts), then there is such a text that is shorter than the product of their numbers. So it can be found out by trying all texts up to a length whether a regex accepts anything, whether it accepts everything, whether two regexes accept the same texts, whether one accepts whatever the other accepts, whether they have no text in common; and it accepts infinitely many texts exactly if it accepts one whose length is at least the number and less than twice the number.", "quantifier": "all usable regexes without references, all methods, flags and categories, all numbers of calls, all properties of the verdicts, all texts", "why_tests_cant": "That texts up to a length are enough is a statement about all longer texts.", "anchors": ["include/mregex/regex_methods.hpp", "include/mregex/ast/nodes/quantifiers/repetition.hpp", "include/mregex/ast/nodes/lookaround.hpp", "include/mregex/ast/nodes/sequence.hpp", "include/mregex/ast/nodes/alternation.hpp"]}
{"id": "C104", "title": "Whether parts of patterns can be exchanged can be found out", "statement": "For two parts of patterns without groups and references a number can be read off. They can be exchanged in all surroundings without references, without any change of verdicts and matches, exactly if they offer the same ends in the same order (repetitions aside) from all positions of all texts that are shorter than this number, in all ways of reading that the iterators allow. Likewise for whole regexes without references, with any flags: matches that begin at the same position always end at the same position exactly if they do so in the texts that are shorter than the number; then match_prefix, search, tokenize and find_all report and visit the same ranges in every text.", "quantifier": "all expressions without groups and references (all regexes without references for the second part), all flags and categories, all surroundings, all texts", "why_tests_cant": "Surroundings and texts are unbounded; that a difference in any surroundings shows in a text of bounded length is a statement about all of them.", "anchors": ["include/mregex/regex_methods.hpp", "include/mregex/ast/nodes/quantifiers/repetition.hpp", "include/mregex/ast/nodes/lookaround.hpp", "include/mregex/ast/nodes/sequence.hpp", "include/mregex/ast/nodes/alternation.hpp", "include/mregex/match_result_generator.hpp"]}
{"id": "C105", "title": "With references, nothing can tell whether a pattern accepts every text", "statement": "For every program of a basis for all computable functions, and every number, there is a pattern that match accepts for all texts exactly if the program does not halt for the number. The pattern is computable from the number, compiles, and uses nothing but characters, sets, greedy repetitions, sequences, alternatives, numbered groups and references to them. So every procedure that is proposed for recognising the patterns that accept every text (even one that need not stop for the others) is wrong about some pattern of this kind; likewise for the pairs of patterns that accept the same texts, and for the pairs of which the second accepts whatever the first accepts. No bound that can be computed from the patterns works either: for every such bound there is a pattern that accepts all texts up to the bound and not all texts. For patterns without references C103 answers these questions and gives bounds.", "quantifier": "all programs and numbers, all recursively enumerable predicates on patterns and on pairs of patterns, all computable bounds, all iterator categories that can be read backwards, all texts", "why_tests_cant": "The statement is about all procedures; no set of patterns and texts shows that none of them is right.", "anchors": ["include/mregex/regex_methods.hpp", "include/mregex/ast/nodes/terminals/backref.hpp", "include/mregex/ast/nodes/capture.hpp", "include/mregex/ast/nodes/alternation.hpp", "include/mregex/ast/nodes/sequence.hpp", "include/mregex/ast/nodes/quantifiers/repetition.hpp", "include/mregex/parser/parser.hpp"]}
{"id": "C106", "title": "Whether a pattern accepts any text", "statement": "For patterns without anchors, lookarounds and possessive parts, a look at the parts of the pattern tells whether match, match_prefix and search accept any text at all: every part that has to be there must be possible, and references always are, so they do not matter. A text that is accepted can be written down directly. For every pattern P, with references or without, the pattern (?!(?:P)\\Z)[^]* accepts exactly the texts that P does not accept. Therefore, with a negative lookahead and references together, nothing can tell: every procedure that is proposed for recognising the patterns that accept no text is wrong about some pattern, no procedure decides it, and whatever bound is computed from the patterns, some pattern accepts texts, but only longer ones.", "quantifier": "all patterns, all flags, all iterator categories, all texts, all recursively enumerable predicates on patterns, all computable bounds", "why_tests_cant": "That a pattern accepts no text is a statement about all texts, and that no procedure recognises such patterns is one about all procedures.", "anchors": ["include/mregex/regex_methods.hpp", "include/mregex/ast/nodes/terminals/backref.hpp", "include/mregex/ast/nodes/capture.hpp", "include/mregex/ast/nodes/alternation.hpp", "include/mregex/ast/nodes/sequence.hpp", "include/mregex/ast/nodes/quantifiers/repetition.hpp", "include/mregex/parser/parser.hpp"]}
{"id": "C107", "title": "The functions that are instantiated are in order", "statement": "Every function that a call of match, match_prefix or search has to instantiate is in order (the static assertions of its class hold, the overloads it calls exist, the captures it names exist) iff the pattern meets the requirements of C57 and no part that takes one character is to be repeated 2^63 times or more; parts that are repeated zero times are not instantiated and need not be in order. If all numerals in an accepted pattern are less than 2^63, the requirements of C57 are enough. a{9223372036854775808} is accepted and meets the requirements of C57, but calls a function that does not exist.", "quantifier": "all trees, all accepted patterns of less than 2^60 characters, all flags, iterator categories, texts and continuations", "why_tests_cant": "A program that does not compile cannot be run as a test, and the instantiations of a pattern are not visible to a program; there are infinitely many patterns.", "anchors": ["include/mregex/utility/distance.hpp", "include/mregex/ast/nodes/quantifiers/fixed_repetition.hpp", "include/mregex/ast/nodes/quantifiers/repetition.hpp", "include/mregex/ast/nodes/sequence.hpp", "include/mregex/ast/nodes/set.hpp", "include/mregex/ast/nodes/negated.hpp", "include/mregex/ast/nodes/terminals/range.hpp", "include/mregex/ast/predicates/lookaround_predicate.hpp", "include/mregex/ast/predicates/anchor_predicates.hpp"]}
{"id": "C108", "title": "Codes are decoded", "statement": "For a regex without references, assertions and possessive parts of which no accepted text is the beginning of another accepted text: tokenize takes a text that is made of non-empty accepted texts apart into exactly these and stops where no accepted text begins; the tokens reach from the beginning to the end of a text exactly if (?:P)* accepts it; and all such regexes that accept the same texts (whatever their modes, flags and order of alternatives) report the same matches in all methods and loops. Exactly then: if an accepted text begins with another one, some regex that accepts the same texts reports another match. Whether it is so can be found out: no text is accepted both by P and by P[\\x00-\\xff]+ (C103).", "quantifier": "all such regexes, flags, iterator categories, texts and methods", "why_tests_cant": "The claim is about all regexes with the same language and all texts made of accepted texts.", "anchors": ["include/mregex/regex.hpp", "include/mregex/match_result_generator.hpp", "include/mregex/utility/input_range_adapter.hpp", "include/mregex/regex_methods.hpp", "include/mregex/ast/nodes/alternation.hpp"]}
{"id": "C109", "title": "Loosening a part loosens the pattern", "statement": "If a part Y of a pattern can match wherever a part X can (from the same positions to the same positions, in the ways of reading that the iterators allow), then the pattern with Y accepts every text that the pattern with X accepts, in match, match_prefix and search, and a search finds a match no further to the right; inside negative lookarounds it is the other way round, and in none of these cases need the parts be at the top: groups, alternations, sequences, greedy and lazy quantifiers and lookarounds may be around them, but no possessive quantifiers and atomic groups, for which it fails. The same holds with groups and references around parts without them (where the groups and references are not inside lookarounds and possessive parts). For X and Y without groups and references nothing weaker suffices, it means that Y|X can be exchanged for Y, and a program finds out whether it is so. Y permits more than X if it has further alternatives in any order, wider bounds, a quantifier that gives back instead of a possessive one, an optional or repeated X, or lacks an assertion of X.", "quantifier": "all such parts and surrounding patterns, flags, iterator categories, methods and texts", "why_tests_cant": "The claim is about all pairs of parts and all surrounding patterns and texts.", "anchors": ["include/mregex/ast/nodes/quantifiers/repetition.hpp", "include/mregex/ast/nodes/alternation.hpp", "include/mregex/ast/nodes/sequence.hpp", "include/mregex/ast/nodes/lookaround.hpp", "include/mregex/ast/nodes/negated.hpp", "include/mregex/regex_methods.hpp"]}
{"id": "C110", "title": "Texts in UTF-8", "statement": "The library works on bytes. For patterns in which every character beyond ASCII is spelled out with all its bytes in a row (no `.`, no sets, no `\\D \\W \\S \\N` and hexadecimal escapes, no quantifier directly after such a character; assertions in the tree may contain anything, except that lookbehinds are of the kind that is read correctly, see C14) it nevertheless works on whole UTF-8 characters: for every text in UTF-8 neither a match that is not empty nor the text of a group begins or ends inside a character, with every flag, method and call of a generator, including case-insensitive comparison, references and possessive quantifiers. The conditions are needed: `.` and `[é]` match the first byte of `é`, and in `é+` only the last byte is repeated.", "quantifier": "all such patterns, flags, methods, generator states and texts in UTF-8", "why_tests_cant": "The claim is about all patterns and all texts in UTF-8.", "anchors": ["include/mregex/ast/nodes/terminals/literal.hpp", "include/mregex/ast/nodes/terminals/wildcard.hpp", "include/mregex/ast/nodes/set.hpp", "include/mregex/ast/nodes/sequence.hpp", "include/mregex/ast/nodes/quantifiers/repetition.hpp", "include/mregex/utility/char_traits.hpp", "include/mregex/regex_methods.hpp"]}
{"id": "C111", "title": "Regular expressions over Unicode characters", "statement": "Regular expressions over Unicode characters can be carried out by the library on UTF-8: write a character as its bytes, an arbitrary character as the alternation of the nine ranges of well-formed UTF-8, and keep ranges of ASCII characters, concatenation, alternation, repetition and groups as they are. Then match accepts the encoding of a text iff the text is in the language over characters, and rejects everything that is no encoding; match_prefix finds the encoding of a prefix in the language and search the encoding of a leftmost part in the language, both at boundaries of characters; loops over find_all and tokenize visit the encodings of such pieces one after the other. On bytes that are no encoding, all methods and loops still report only encodings of texts in the language; match_prefix and search find one whenever the bytes begin with one or contain one, and if the empty text is not in the language, every place where one begins is inside of one that find_all visits; tokenize goes on as long as one begins where the last one ended. With icase, characters of ASCII are compared up to case and all others exactly.", "quantifier": "all such expressions, flags, iterator categories and texts over Unicode characters", "why_tests_cant": "There are infinitely many expressions and texts and 1112064 characters; the claim that an alternation of byte ranges is exactly the set of encodings is about all of them.", "anchors": ["include/mregex/ast/nodes/terminals/literal.hpp", "include/mregex/ast/nodes/terminals/range.hpp", "include/mregex/ast/nodes/set.hpp", "include/mregex/ast/nodes/sequence.hpp", "include/mregex/ast/nodes/alternation.hpp", "include/mregex/ast/nodes/quantifiers/repetition.hpp", "include/mregex/utility/char_traits.hpp", "include/mregex/regex_methods.hpp"]}
{"id": "C112", "title": "The programs in example/ do what they show", "statement": "The regex of example/basic.cpp matches exactly the texts of an a and one or more b. The expression that example/using_expressions.cpp puts together matches exactly the URLs with the schema ftp, ssh, http or https, a name of small letters, dots and dashes that is followed by .com, and possibly a slash and a path without blanks; the group domain holds the name with .com, and no text can be read in two ways. The regex of example/structured_bindings.cpp, searched in a text without digits that is followed by a date and by something that does not continue the year, finds the date, and its groups hold the day, the month and the year.", "quantifier": "all texts, dates and iterator categories", "why_tests_cant": "The examples show one text each; the claims are about all texts, also about all those that must be rejected.", "anchors": ["example/basic.cpp", "example/using_expressions.cpp", "example/structured_bindings.cpp", "include/mregex/xpr/operators.hpp", "include/mregex/xpr/components.hpp", "include/mregex/xpr/adapters.hpp", "include/mregex/regex.hpp", "include/mregex/regex_methods.hpp"]}
{"id": "C113", "title": "The order of preference counts in Unicode characters", "statement": "For the expressions of C111 the library prefers on UTF-8 exactly what a backtracking matcher over Unicode characters prefers: list the ends of the attempts in characters, branches from left to right, greedy quantifiers with more rounds first, lazy ones with fewer first, possessive ones with one way only, and ungreedy exchanging greedy and lazy. Then match_prefix reports the first of them, match accepts iff the end of the text is among them, search reports the first one at the leftmost place where there is one, and loops over tokenize and find_all visit these pieces one after the other. Without possessive quantifiers the list holds exactly the ends of the texts in the language. If a group without possessive quantifiers holds text after a call, that text is made of whole characters and is in the language of the group.", "quantifier": "all such expressions, flags, iterator categories and texts over Unicode characters", "why_tests_cant": "A quantifier over an encoded character tries byte after byte; that no partial character ever changes the order of preference is a claim about all expressions and all texts.", "anchors": ["include/mregex/ast/nodes/alternation.hpp", "include/mregex/ast/nodes/sequence.hpp", "include/mregex/ast/nodes/quantifiers/repetition.hpp", "include/mregex/ast/nodes/quantifiers/fixed_repetition.hpp", "include/mregex/ast/nodes/terminals/literal.hpp", "include/mregex/ast/nodes/terminals/range.hpp", "include/mregex/regex_methods.hpp", "include/mregex/match_result_generator.hpp"]}
{"id": "C114", "title": "Every regular language over Unicode characters has a pattern", "statement": "For every expression of C111 without groups and with bounds that can be written, hence for every regular expression of the theory of formal languages over Unicode characters and for every regular language over them, there is a pattern that the parser accepts, that can be used with every iterator category, and with which match accepts exactly the UTF-8 encodings of the texts of the language; bytes that encode no text are never accepted. There is also a pattern for which match, match_prefix and search all report a match for exactly these encodings. Conversely, the texts over characters whose encodings a regex without references accepts always form a regular language. The pattern for an arbitrary character that C111 uses is parsed as its tree.", "quantifier": "all such expressions, flags, regular languages over characters, iterator categories and byte sequences", "why_tests_cant": "Existence of a pattern for each of infinitely many languages, each with infinitely many texts, valid and invalid.", "anchors": ["include/mregex/regex.hpp", "include/mregex/parser/parser.hpp", "include/mregex/ast/nodes/quantifiers/repetition.hpp", "include/mregex/ast/nodes/alternation.hpp", "include/mregex/ast/nodes/set.hpp", "include/mregex/ast/nodes/terminals/literal.hpp", "include/mregex/regex_methods.hpp"]}
{"id": "C115", "title": "Patterns can say not, and, or, and backwards", "statement": "For every usable regex without references - with lookarounds, possessive quantifiers, flags and any method - there is a pattern that accepts exactly the texts that it does not accept, and one that accepts exactly the reversals of the texts that it accepts; for two such regexes, with different flags and methods, there are patterns for what both accept and for what at least one accepts. There is always an expression without lookarounds, anchors, word boundaries, possessive quantifiers, groups and flags with which match accepts the same texts. After any bytes have been read, what can still follow has a pattern, and finitely many patterns are enough for all bytes read. Every accepted text that is long enough has a nonempty part near its beginning that can be left out or repeated. With references the last claim is false: (.*)\\1 under dotall.", "quantifier": "all usable regexes without references, flags, methods, iterator categories and texts", "why_tests_cant": "Existence of a pattern for each of infinitely many regexes, that agrees on infinitely many texts.", "anchors": ["include/mregex/regex.hpp", "include/mregex/parser/parser.hpp", "include/mregex/ast/nodes/quantifiers/repetition.hpp", "include/mregex/ast/predicates/lookaround_predicate.hpp", "include/mregex/ast/nodes/alternation.hpp", "include/mregex/ast/nodes/terminals/backref.hpp"]}
