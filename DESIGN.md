# Formal model of mregex: design

Source: `/repo` (C++20 header-only library). All code under `include/mregex` was read as text.
The proofs are in `lean/Verif`. This file says what is modelled, how each property is proved,
what is trusted and what was found to disagree with the property list.

## 1. Trusted base

* Lean 4.33.0 kernel. No axioms are added. Theorems may depend on `propext`, `Classical.choice`,
  `Quot.sound` (checked by `#print axioms`), nothing else. No `sorry`, `native_decide`, `bv_decide`.
* The model itself: every definition cites the header and lines it transcribes. The correspondence
  between C++ and Lean is by reading. It is tested, not proved: `lean/Verif/Check` evaluates about a thousand assertions of
  `/repo/test` (all of those on matching, searching, iterating, parsing, trees, traits, expressions, type sequences and static
  strings) in the model; every one holds.
* C++ language/library facts used in the transcription: overload resolution between constrained and
  unconstrained overloads, `std::reverse_iterator`, `std::get` on tuples, template specialisation order.

## 2. What is modelled

| Lean module | C++ | contents |
|---|---|---|
| `Model/Chars` | utility/char_traits.hpp | bytes, classification, case bits |
| `Model/Ast` | ast/astfwd.hpp, ast/traits.hpp, ast/inversion.hpp, ast/indexing.hpp, ast/transform.hpp | AST, traits, mirroring, numbering |
| `Model/Match` | ast/nodes/**, ast/predicates/**, utility/distance.hpp, utility/continuations.hpp | the matcher in continuation passing style with mutable captures |
| `Model/Methods` | regex_methods.hpp, regex.hpp, regex_match_context.hpp, regex_flags.hpp, match_result.hpp, regex_capture.hpp | public entry points, results |
| `Model/Generator` | match_result_generator.hpp, utility/input_range_adapter.hpp | tokenizer, searcher, ranges |
| `Model/Build` | ast/build.hpp | the tree builders run by the semantic actions |
| `Model/Grammar` | grammar/**, symbols/** | the LL(1) table as a function of stack top and look-ahead |
| `Model/Parser` | parser/** | the pushdown automaton |
| `Model/Xpr` | xpr/** | combinators, C++ expressions built from them, which of these compile |
| `Model/TypeSeq` | utility/type_sequence.hpp | block-wise concat / reverse |
| `Model/StaticString` | utility/static_string.hpp, reversed_range_view.hpp, symbols/names.hpp | copying, deduction of the length, names as types, loops over reversed views |
| `Model/Meter` | the `match` functions again, with meters: how many are called and how many are active at a time | two extra elements behind the captures; only `match` functions of nodes are counted, not frames of helpers and closures; `measure_result`: the meters change nothing |
| `Model/Access` | utility/tuple.hpp, match_result.hpp and regex_capture.hpp (access to groups and characters) | traversals, deduction of `std::tuple{...}`, reading characters, streaming |
| `Model/Lifetime` | regex.hpp (overloads for ranges), utility/type_traits.hpp, utility/concepts.hpp | overload resolution, which memory outlives the call |
| `Model/Source` | regex.hpp:171-271 (arguments), utility/concepts.hpp, the `char` parameters of `match_one` | which text an argument stands for |
| `Model/Iteration` | utility/input_range_adapter.hpp:24-108 (`iterator`, copies of ranges) | programs over ranges and iterators |
| `Model/Compile` | parser/state.hpp:55-75, parser/parser.hpp (recursion of `parse`) | numbers of nested instantiations |
| `Model/Holding` | match_result.hpp, regex_capture.hpp (overloads for value categories, `noexcept`), utility/tuple.hpp | programs over results, captures and texts; copies that fail |
| `Model/Instances` | ast/nodes/*.hpp, quantifiers/*.hpp, predicates/lookaround_predicate.hpp, utility/continuations.hpp (template arguments) | which functions the body of a function calls, with the types of the continuations |
| `Model/Demands` | ast/nodes/**.hpp, predicates/*.hpp, utility/distance.hpp (static requirements) | what each instantiated function demands of the program |

Modelling decisions:

* A character is `BitVec 8`; the input is a `List` of bytes; an iterator is a position `0..n` together with
  the number of `std::reverse_iterator` layers around the user's iterator type (even = forward,
  odd = backward; 0 = the type `Context::iterator`). The iterator category is a parameter.
* `match` is transcribed node by node with explicit continuations and an explicit capture state that is threaded
  through (the C++ code mutates it through a reference and does not roll it back).
* The result of running is `ok result captures`, `ub` (a read or move outside the input, or a construct
  that does not compile), or `diverge` (fuel exhausted). Fuel bounds recursion on the AST and the
  *unbounded* loops only. Safety and termination are theorems (`ub`, `diverge` never occur, and
  every larger amount of fuel gives the same result).
* Static requirements of the code (`static_assert`s, concept requirements, tuple indices) are collected in the
  predicate `Ok`, used as hypothesis where needed.
* Not modelled: `noexcept` (except for copies of results, `Model/Holding`), execution time and stack depth in bytes and seconds (calls are counted, `Model/Meter`), formatting by streams, template instantiation limits (the instantiations are counted, `Model/Compile`, `Model/Instances`), integers beyond 64 bit for `ptrdiff_t`
  distances at run time (sizes are naturals; decimal numerals are reduced modulo 2^64 as `std::size_t` does; template arguments of type `std::ptrdiff_t` are in `Model/Demands`, C107), the demands of classes that are completed without a function of theirs
  being instantiated.

## 3. Specifications (independent of the model)

| Module | contents |
|---|---|
| `Spec/Static` | `Ok`: what the library demands at compile time (`static_assert`s, concepts, tuple indices) |
| `Spec/Lang` | `Matches flags s a i j`: declarative meaning of an AST on `s` between two positions; `declarative` fragment |
| `Spec/Order` | `ends`: end positions in order of preference |
| `Spec/Groups` | which sub-expression belongs to which group number |
| `Spec/Swap` | exchange of greedy and lazy quantifiers |
| `Spec/Possessive` | rewriting of possessive quantifiers to atomic groups |
| `Spec/Paths` | paths through a regex (branches, iterations, groups entered), last participation, texts equal up to case |
| `Spec/Local` | regexes whose matches do not look at their surroundings |
| `Spec/Syntax` | the documented grammar of patterns as an inductive relation |
| `Spec/Openers` | texts that open groups |
| `Spec/Escape`, `Spec/Sets` | escapes, items of sets as predicates on bytes |
| `Spec/Numbering` | groups opened by a text, counted from the left |
| `Spec/Printing` | normal-form trees and how to write them as patterns |
| `Spec/Kleene` | the formal language of a regex (Mathlib's `Language`) |
| `Spec/Forget` | groups that are tried once more after their last participation |
| `Spec/Kept` | groups in iterated parts that are never tried in vain after their last participation |
| `Spec/Expressions` | meaning of the expressions of the expression-based API |
| `Spec/Effort` | regexes that are cheap to match: `flat`, `once`, `steady` |
| `Spec/Proc` | procedures (`Proc`: note, cross, offer, recall), the procedure of a regex (`proc`), carrying one out (`carryOut`) |
| `Spec/Rewire` | `rewire`: other groups, with references that follow them; `refersKept`, `branchesKept` |
| `Spec/Unfold` | `Unfolds`: laws that write quantifiers as branches and copies; `advances`; `Reworked`: chains with those of C59 |
| `Spec/Passed` | `aheadOnly`: regexes that do not look back; `shiftResult` |
| `Spec/Tidy` | `innerGroups`: groups inside of lookarounds, negations and possessive parts; `referred`: groups that are referred to |
| `Spec/Regular` | `accepted`: the texts for which a method reports a match; `ofExpression`: Mathlib's regular expressions as trees |
| `Spec/Mirror` | `refsNear`, `Opposite`, lookarounds at one position; regexes read in the reversed text |
| `Spec/Skip` | `skipInto`: a regex with characters to skip in front |
| `Spec/Spelled` | `spelled`: a regex with its flags written into it |
| `Spec/Anchored` | `fromStart`, `startToEnd`: a regex between anchors |
| `Spec/Settled` | `Averse`, `Settled`: quantified characters before what cannot begin with them |
| `Spec/Lengths` | Least and greatest lengths of the texts an expression takes; results with fitting lengths |
| `Spec/Layout` | Groups written inside each other, groups written one after the other |
| `Spec/Indistinct` | Characters that pass the same tests, texts that an expression does not tell apart |
| `Spec/Ways` | how the bodies of groups are read (`ReadGroup`), texts taken like this |
| `Spec/Derives` | derivations with references and possessive quantifiers; lookbehinds that are read correctly |
| `Spec/Edges` | `loosen`, `starts`, `finishes`, `needs`: what a match begins with, ends with and contains |
| `Spec/Template` | `Content`, `Field`, `template`, `Separated`, `Filled`, `spans`: fixed texts with fields between them |
| `Spec/Words` | `Stretch`, `Enumerates`: longest stretches of characters, listed in order |
| `Spec/Formula` | `Formula`, `Holds`, `write`: Boolean formulas of patterns and the patterns that stand for them |
| `Spec/Frame` | expressions with a gap, the choices that an expression makes |
| `Spec/Lines` | expressions that do not look across separators, pieces of a text, what is found piece by piece |
| `Spec/Says` | what an expression says, with a memory for groups and references (C92) |
| `Spec/Url` | the texts that example/url_parsing.cpp is about (C93) |
| `Spec/Satisfy` | formulas with three literals per clause, their patterns and texts |
| `Spec/Iteration` | what such programs see, by counting |
| `Spec/Tokens` | one token after the other; stretches of classes side by side |
| `Spec/Compile` | numbers of nodes, of braces and dashes |
| `Spec/Holding` | what an observer sees of a result, statements that give variables away |
| `Spec/Instances` | what has to be instantiated, how many copies quantifiers stand for |
| `Spec/Meaning` | the meaning of a pattern, composed along its text |
| `Spec/Watch` | procedures that ask for the characters; which positions are looked at, and how far |
| `Spec/Told` | references that follow their group at once, and what can be written instead |
| `Spec/Decide` | how many classes of texts a regex tells apart at most; questions about all texts as programs |
| `Spec/Exchange` | which texts show whether two expressions can be exchanged |
| `Spec/Halt` | patterns that accept everything but records of runs that end |
| `Spec/Possible` | whether an expression says anything, a text it says, and the pattern for the texts that are not accepted |
| `Spec/Demands` | all needed functions are in order; lengths of sequences, counts and numerals that fit into `std::ptrdiff_t` |
| `Spec/Codes` | languages without a text that begins with another one; where words stand in a text |
| `Spec/Wider` | parts that permit more; negated and atomic places |
| `Spec/SetExact` | texts that do not close the set around them |
| `Spec/Utf8` | characters of UTF-8, undivided results, expressions and patterns that spell out whole characters |
| `Spec/FailedText` | how far two texts agree |
| `Spec/Unicode` | UTF-8, regular expressions over characters and their languages, how they are written in bytes |
| `Spec/Marks` | groups and references of trees and of C++ expressions in the order of writing |
| `Spec/Site` | the URLs, dates and texts of example/using_expressions.cpp, structured_bindings.cpp and basic.cpp |
| `Spec/UnicodeOrder` | where the attempts of an expression over characters end, in the order of preference; the groups of an expression |
| `Spec/UnicodePattern` | which expressions over characters can be written; regular expressions over characters |
| `Spec/Preference` | ends that expressions prefer, in order |
| `Spec/Writable` | trees whose numbers and names can be written |
| `Spec/Variants` | laws by which a regex can be written differently |
| `Spec/Branches` | more such laws, for regexes without references |
| `Spec/Plain` | trees of expressions without flattening |
| `Spec/Script` | for regexes without references: the list of offers, notes and crossings that a call goes through |
| `Spec/Trails` | the ways through a regex with all groups on the way, also those inside lookarounds and possessive constructs |
| `Spec/Walks` | the same with references, also in lookarounds (read in either direction) and possessive constructs, to groups that surely took part; without references these are the trails |
| `Spec/Regroup` | a regex with other groups; agreement of results |
| `Spec/Viable` | beginnings of patterns |
| `Spec/Usable` | parts of a regex and under how many reversals they are read |

The theorems about properties are in `Props/`, everything they need is in `Proof/`:

| `Proof/` modules | what they show |
|---|---|
| Positions, AstLemmas, CharLemmas, OkCheck, MethodLemmas | arithmetic, traits, bytes, decision of `Ok` |
| Hoare, Fuel, Over, Outcome, Natural | safety, termination, independence of fuel, shape of results, naturality in the continuation |
| Ends, Refine, Sound | `mtch` is "first success over `ends`"; membership in `ends` is `Matches` |
| CaptureLemmas, PathLemmas, Paths, PathsMain, PathMethods, GroupText, Forget, Kept | captures, paths, references, groups that lose or keep their text |
| Sim, Congr, Flatten, Possessive, Local | relations between two runs, rewriting in context, mirroring, locality |
| Expressions | induction over expressions: tree built = meaning, groups, flags, well-formedness |
| Writable | every usable tree is a notational variant of one in normal form |
| Hat, Variants | matchers restricted to the continuations that occur, as a congruence; each law relates the runs of its two sides |
| Oblivious, Branches, Plain | without references a run does not depend on the groups it starts with; dissolved and repeated branches; flattening as such steps |
| Script, ScriptMain, ScriptMethods | without references every node follows its script; so do the methods |
| Trails, TrailsMain | scripts follow the trails; what a group holds at the end of a trail; trails are paths where committed parts have no groups |
| WalkLemmas, Walks, WalksMain, WalkMethods | the matcher tries the walks in order; the groups agree with the walk up to those tried again (`N`) and those in committed parts (`L`) |
| Regroup | scripts of regexes that differ in groups only |
| Proc, ProcMain, ProcMethods | every node, then every method, carries out its procedure |
| Rewire, Moves, Unfold | procedures with other groups; where procedures go; equations between procedures |
| Passed, Mirror, Skip, Anchored, Settled, Lengths, Layout, Indistinct, Ways, Stay, Derives, Edges, Template, Words, Formula, Frame, FrameProc, FramePaths, Lines, Says, Url, Satisfy, Compile, Instances, Meaning, Watch, Reach, Told, Exchange, HaltSays, HaltSlips, HaltRun, HaltRules, HaltText, HaltShape, HaltCompute, Possible, Refusal, Demands, Counts, Wider, WiderPaths, SetExact, BraceExact, Utf8, Utf8Text, Unicode, Site, DateSearch, UnicodeOrder, UnicodePattern | procedures further on in a longer text, in the reversed text, with characters skipped, between anchors, with one way to go on; what holds for all offers and notes |
| Spelled | procedures with and without flags |
| Tidy | what failed attempts leave behind: every noted group outside is crossed out (`Clean`), and references only look at texts (`Textual`) |
| Recog, Machine | finite congruences; lists of ends explored with finitely many states |
| Automata | regular expressions from automata (Kleene) |
| Preference | order of paths |
| Parser, ParserSafe | the automaton never runs into an undefined action; termination |
| Syntax, SyntaxComplete, SyntaxSound, Reading | automaton = grammar |
| Viable | symbol stacks that occur, how each can be emptied; runs on texts with the same beginning |
| Kleene, Usable | formal languages; static requirements as conditions on parts |
| Printing, ParsedLang, SetSem, Brace, Numbering, Named | printing, meaning of sets, braces, group numbers and names |

## 4. How each property is treated

* C01 - Hoare-style rule for the CPS matcher, by induction on fuel: with enough fuel no `ub`, no `diverge`; fuel monotonicity.
* C02, C03, C04, C25, C26 - refinement `match` = first success over `ends` (induction on fuel), then membership in `ends` iff `Matches`.
* C05 - corollary of the refinement for backreference-free regexes; negation with a witness in general (captures leak between attempts); with references to groups outside of lookarounds and possessive parts from C68: failed attempts leave no text in these groups (`Proof/Tidy`), and references only look at texts (also C12 after failures, C31);
  with references the path refinement of C11 gives `C05_references_partial`, and C31 likewise.
* C06 - the refinement theorem; `ends` is a separate list-valued definition, sound and complete for `Matches`.
* C07, C09 - CPS rule with an invariant on captures.
* C08 - negation with witness; `_partial` for `search`; what group 0 holds after failures: `C08_failed`, `C08_text` (Props/FailedText, Spec/FailedText), by induction on the text.
* C10 - CPS rule with the invariant "group k holds a range matched by its body"; negation for bodies the code mirrors wrongly; with references and possessive parts by invariants of procedures.
* C11, C12, C53 - `paths` lists the ways through a regex with the groups on the way, in order of preference. The refinement
  relates `mtch` with captures to the first path accepted by the continuation. Negations where captures are lost or left over. Without references,
  `trails` also follow groups into lookarounds and possessive constructs; the script of a regex is compared with its trails. With references
  `walks` do so, refined directly; a group in a committed part may hold left over text until it takes part, so references to it are allowed only after it surely did. In lookbehinds
  the walks go from the last part to the first, as the code inverts the sequence; two lookbehinds deep references compare in reverse, as the code does (C75).
* C13, C15, C16 - corollaries of the refinement; C16 negated in general, `_partial` for bodies that cannot match empty.
* C14 - mirror theorem for direction-neutral bodies (`_partial`); negations for anchors and nested lookarounds.
* C17, C18, C20, C45 - direct from the model, independent statements; byte tables by kernel evaluation over all 256 bytes.
* C19, C21, C22, C24 - relational induction on fuel over two runs.
* C23 - list membership.
* C27 - induction over the comparison loop in both directions; negation two iterator layers deep. C28 - C27 with C02.
* C29-C33 - invariants over the generator's call history, by induction on the number of calls.
* C34 - invariant on (symbol stack, node stack) of the automaton; measure for termination.
* C36, C52 - the grammar `Spec.Pattern` is an inductive relation. Soundness and completeness of the automaton by induction
  over derivations and over runs. Printing a normal-form tree derives in the grammar.
* C35, C37, C38, C39, C40, C41, C42, C43 - the parser theorem C52 and induction over the text; negations where the code deviates. C40 exactly (Spec/SetExact, Proof/SetExact, Props/SetExact): where the set ends is determined by the text, so that an accepted `[w]` is a single set; its items are those of C100. C39 exactly (Proof/BraceExact, Props/BraceExact): what follows a text matters only if it is a quantifier, a digit or the end of the group, so the same text can be read in a group.
* C44 - direct; negation for `operator bool` of captures.
* C46 - equality of `ends` before and after flattening; relational induction for captures; C59 for all groups. Without references
  the whole of flattening (`C46_flattening_partial`): induction over expressions, each flattening is a chain of the laws of C59.
* C47 - induction on `Matches` over a shifted text. C48 - mirror theorem on the reversed text.
* C49 - part of the CPS rule.
* C50 - relational induction (`\Z` continuation).
* C51 - strong induction on list length.
* C54 - `denote` maps regexes to Mathlib's `Language`; equality with `Matches` by induction, then C02-C04.
* C55 - the matcher on trivially matchable nodes is a one-character test, by induction on the tree; meaning by C02's relation. Sequences and fixed repetitions of such nodes, which the code checks in one loop, take one character for each.
* C56 - length of the capture state is an invariant (CPS rule); C41 for the text.
* C57 - `Ok` is equivalent to local conditions on all parts, by induction with the state (reversals, mirrored); normal forms (C36) give the rest.
* C58 - (groups and references with their numbers: Spec/Marks, Props/Marks) induction over expressions; all of the meaning, whether it tests a position, groups, flags and nonemptiness of what is
  flattened have to be carried along; verdicts by C02-C04. Order of preference likewise, results by C06.
* C59 - two regexes are `Twin` if usable alike and if their matchers agree on all continuations that return. `Twin` is a congruence for
  every node and holds for each law; induction over the rewriting steps, with the direction of reading as parameter. The laws for
  regexes without references: a second attempt of an alternative that has failed fails again, since no node reads groups.
* C60 - induction over the tree: a variant (C59) in normal form that keeps numbers and tests; what is in normal form can be printed and
  parsed (C36).
* C61 - overload by cases over the kinds of arguments; groups lie in the input (C09), so their texts are what was copied or is still there.
* C62 - the script (C63) of the regex with other groups is the script with renumbered or dropped notes; generators by induction over the
  calls, their states are equal or both inactive.
* C63 - `mtch` with any continuation that depends on groups as it likes is the run of the script with that continuation after each
  offer (`mtch_script`): induction over fuel, one lemma per node and loop; then the methods.
* C64 - invariant on the symbol stacks that occur, each of which some text empties (induction over the stack); the machine makes the same
  steps on texts with the same beginning.
* C65 - induction over the index sequence; the texts by C09.
* C66 - a logical relation between the matchers with and without meters (`Proof/Param`), a rule for costs with a potential per character (`Proof/Effort`, `EffortMain`), linearity of the bound; `(?:aa)*` by induction over the rounds.
* C67 - the same rule; closure of polynomially bounded functions (`EffortMethods`), also with explicit exponents (`choices`, `degree` in Spec/Effort, `C67_degree`); `(?:a+)+b` by induction over the positions given back (`EffortSharp`); `a*…a*b` with `k` stars reaches the exponent `k` (`EffortStars`, the calls are counted by `shares k n`, the number of ways to give at most `n` letters to `k` parts).
* C68 - `mtch` with any continuation is the run of the procedure with that continuation after each offer (`DenP`, `mtch_proc`): induction over fuel, one lemma per node and loop, as for C63 but with trees that ask for groups; references by comparing character by character; then the methods (`ProcMethods`).
* C69 - a relation between procedures that drops and renames notes and respects all operations on procedures (`Renoted`), induction over the regex (`proc_rewire`), C68.
* C70 - procedures only go onwards (`Proof/Moves`: all offers of `proc` lie ahead, so the limit of rounds does not matter), equations between procedures for each law, congruence at every place (`Akin`), C68.
* C71 - direct: the copying loop, injectivity, `distLoop`, induction over the reversed range.
* C72 - a relation `Shifted` between procedures (what is recalled is shifted too), congruence for all combinators, the limit of rounds by C70's `Proof/Moves`; then C68.
* C73 - `ends` (C06) asked by a continuation with finitely many answers: a finite state, updated from the far end of the text towards the start, gives the first
  answer (`Machine`, closed under all combinators; loops feed their own answer back). Tests in the other direction enter as functions of the position that
  a finite congruence determines (`Recog`), which such computations preserve. Regularity by Myhill-Nerode; squares by C28.
* C74 - Kleene's construction from a DFA, translated to trees between `\A` and `\Z`; languages by C54 and C02-C04, patterns by C60.
* C75 - the procedures (C68) of the body in the two texts are mirror images of each other, by induction on the body; group ranges may differ where both are empty (a crossed-out range keeps its begin, which is not symmetric). Complements C14: it says what a lookbehind does for the bodies for which C14 is false.
* C76 - `[\x00-\xff]*?R` as a procedure (C68) offers what the attempts of the search offer, one after the other (`Proof/Skip`).
* C77 - `Spec/Spelled` writes the flags into the tree; its procedure (C68) without flags is the one of the tree with flags, by induction; static requirements, names and group numbers are kept; `C77_pattern` adds C36 and C60.
* C78 - `Model/Source`: arguments become texts by `strlen` or by narrowing of each character; direct, by induction on the text.
* C79 - `Spec/Anchored` adds the anchors; `Proof/Anchored` shows by the procedures of C68 that a search carries out only the attempt at the start, filtered at the end.
* C80 - `Spec/Settled` says what cannot begin with a character (`Averse`) and changes modes there (`Settled`); the procedures (C68) are equal, by induction on the rounds; places as for C70.
* C81 - Lengths fit. `Spec/Lengths` computes `shortest` and `longest` from the syntax tree. Proved by an invariant of the procedure of C68 (`Proc.Fit`: all offers are within the bounds, all notes have the length of a body of a group), carried through `follow` and `carryOut`. Groups evaluated in vain hold an empty range, which is why "or is empty" is needed in (2).
* C82 - Groups lie as they are written. `Spec/Layout` says what it means that groups are written inside each other (`Encloses`) or one after the other (`Precedes`). Proved with a Hoare-style predicate for procedures (`Proc.Hold`: condition at each offer, condition on giving up, notes that the rest may change), with rules for all combinators; `between_proc` says that a group outside lookarounds and possessive parts ends up with nothing, what it had, or a range between start and end.
* C83 - Characters that an expression does not tell apart. `Spec/Indistinct`: `alike` collects the tests in the tree. Proved by showing that the procedures of C68 are the same for both texts (`proc_indistinct`); C19 is the special case of letters with icase.
* C84 - every offer and every note of the procedure (C68) is justified by a derivation, relying on what is noted when a group is recalled (`Proc.Just`, `just_proc`).
* C85 - what a match begins with, ends with and contains: `Spec/Edges` reads first characters, last characters and needed characters off the expression. `loosely_proc` shows by induction over the expression, for the procedures of C68, that whatever is offered is matched by the loosened expression (`loosen`: no lookarounds, no negated assertions); `edges_of_matches` reads the edges off the declarative meaning. Proved.
* C86 - templates: fixed texts with fields between them (`Spec/Template`). `paths_template` computes, by induction over the fields, all paths of C53 that reach the end of the text: they are exactly the fillings; a possessive or lazy field loses nothing, because the character after it is not in its class (`StopsAt`, `mem_content`). `filled_unique` shows that there is only one filling, so the groups of the result are its ranges. The patterns of the examples are templates by computation (`C86_patterns`).
* C87 - words: `Spec/Words` defines the longest stretches (`Stretch`) and what it means to enumerate them in order (`Enumerates`). With C31 the claim is about the first end of an attempt at each position: `mem_run` (from C86) and `sub_run` determine the ends of a repeated class for all modes, `finds_left` shows by induction over the found matches that each begins where a stretch begins, and `finds_all` that none is left out.
* C88 - the documentation: `C88_url_false` and `C88_url_converse_false` refute the equivalence of the URL expression with the pattern in the comment; the other expression is the same tree as its pattern (`C88_word_partial`) and finds exactly the words; `[]` and `[^]` for all texts; the notes on the syntax by computation of the parser on the patterns given there.
* C89 - Boolean formulas: `C89_formula` (every formula of patterns is a pattern and accepts the texts for which it holds), `C89_operations` (the three operations as equations between languages), `C89_equivalent` (two patterns are equivalent iff one pattern accepts nothing), `C89_methods`. The proof reads the pattern with the grammar of C52, shows that group numbers do not matter for whether a regex is usable (`ok_of_strip`) and computes `ends`.
* C90 - Spec/Frame: an expression with a gap (`Frame`), `SameChoices` (for every condition on the end the same first end in the list `ends` of C06), `Readings`. Soundness by induction on the frame; completeness by constructing, for every text, position and way of reading, an observer `(?=[^]{k}\Z)(?>X(?:tests))test` inside at most two lookbehinds. C90_groups uses the paths of C53, C90_steps the procedures of C68. `C90_order_matters`, `C90_forward`, `C90_backward`, `C90_twice`, `C90_references_differ` are the instances that show what the notion separates.
* C91 - `Spec/Lines` (`stays`, `pieces`), a relation between procedures of a line and of the text around it (`Window`), carried over to fresh attempts and to iterated searches by induction over the pieces.
* C92 - `Spec/Says`: a relation between a memory, a word and the memory afterwards, by recursion over the expression. `Proof/Says` relates it to the paths of C53 in both directions (empty iterations of unbounded quantifiers are left out by the matcher; they cannot matter as referenced groups are not inside of them). Not covered: anchors, lookarounds and possessive quantifiers, which do not have a meaning in terms of words.
* C93 - The pattern of example/url_parsing.cpp, from its text. `Spec/Url` defines URLs with optional parts; the proof computes what each part of the tree says and shows that the text of a URL determines it.
* C94 - Spec/Satisfy (formulas, their patterns and texts), Proof/Satisfy (the tree via C36 `parse_print`, the side conditions, what the parts say), Props/Satisfy. By C92 a match is a memory; the two groups of a variable share one `x`, so exactly one of them holds it, and a clause says `x` exactly if one of its groups does.
* C95 - Model/Iteration (programs over ranges and iterators, as pointers), Spec/Iteration (the same by counting), Props/Iteration. Refinement: the state of the variables is a function of the counts and of the sequence of generator calls; every step commutes with it. Two steps violate the statement (findings 28, 29).
* C96 - Spec/Tokens (`Takes`, `Lexed`, `Tiles`), Props/Tokens. Induction on the calls of the generator with the view of one attempt from C06/C53; the classes by induction on the alternatives with the longest stretch of C90; the partition by induction on the ranges, with the invariant that no class continues across the place reached.
* C97 - Model/Compile (the number of nested instantiations of `parse`, round by round), Spec/Compile, Proof/Compile, Props/Compile. A potential: every symbol has a cost for the depth, a weight for the work and a gain for the nodes; every rule is checked once, and the rounds by induction over the characters left. The families of patterns for the negation by induction over their length.
* C98 - Model/Holding (value categories, overload resolution, programs with copies that may fail), Spec/Holding, Props/Holding. Every statement is checked once for the variables it may change and for the ways it may end, programs by induction. Findings 32, 33.
* C99 - Model/Instances (the function templates and closure types as terms, the calls in every body), Spec/Instances, Proof/Instances, Props/Instances. A closed list of functions is built for every node, by induction on the size; the lower bounds by the sites of the lambdas a continuation is made of. Finding 34.
* C100 - Spec/Meaning (a denotation composed along the text of the pattern, no trees), Proof/Meaning, Props/Meaning. By induction on the reading of the text, in both directions, between `Denotes` and the grammar of C52, with the order of ends of C06; the lookbehinds by the equivalence of C02 read in both directions.
* C101 - Spec/Watch (procedures that ask the text for characters; `looked`; `reach`, read off the expression), Proof/Watch, Proof/Reach, Props/Watch. Answering all questions gives the procedures of C68 (`settle_watch`); two texts that give the same answers lead to the same run; `reach` bounds the questions by induction, with the lengths of C81 for the positions reached.
* C102 - Spec/Told (the two laws and the places), Proof/Told, Props/Told. In the procedures (C68) the group is noted directly before it is recalled, with a range that the copies of its own text reach exactly; the relation between procedures is a congruence for everything outside of lookbehinds.
* C103 - Spec/Decide (the number, and the questions as programs that try texts), Proof/Recog and Proof/Machine with numbers of classes and states, Props/Decide. The congruence of C73 has a number of classes that follows the structure of the regex; two beginnings of a long text are in the same class, and what is between them can be left out or repeated.
* C104 - Spec/Exchange, Proof/Exchange, Props/Exchange. Positions of the text are marked in one of two ways or not at all; which mark is found first is determined by finitely many classes of marked texts (C103), and two expressions that prefer different ends give different answers for suitable marks. With C90 this decides whether they can be exchanged.
* C105 - Spec/Halt, Proof/HaltSays, HaltSlips, HaltRun, HaltRules, HaltText, HaltShape, HaltCompute, Props/Halt. Mathlib's programs `Turing.ToPartrec.Code` are run by steps on a stack of frames, the steps are rules that rewrite words, and an alternative for every way to break a rule (a copy that differs in some character: the word is split into what is before, the character, and the rest) finds mistakes in records of runs. What none of them accepts is the record of a run that ends. C92 tells what `match` accepts, C36 that the printed pattern compiles to the expression; the halting problem is Mathlib's. Every such record contains the result in unary, so with Kleene's recursion theorem the shortest rejected texts exceed every computable bound.
* C106 - Spec/Possible, Proof/Possible, Refusal, Props/Possible. What a part can say (C92) is not empty exactly if the test on its parts succeeds, since a reference can always repeat what is remembered; by induction on the expression. The negative lookahead is computed from the function for `(?:P)\Z` (C50), without the views for patterns without references. The rest is C105 for such patterns.
* C107 - Model/Demands (what the body and the class of one function demand), Spec/Demands, Proof/Demands, Counts, Props/Demands. In both directions by induction on the size, over the functions that are needed (C99); the loops are functions that call themselves. Bounds in a pattern are numerals of it, by induction on the grammar (C52).
* C108 - Spec/Codes, Props/Codes. Corollary of C54, C96, C103 and C104: at every position there is at most one end; the converse by an alternative in front that prefers one of the two texts.
* C109 - Spec/Wider, Proof/Wider, Proof/WiderPaths, Props/Wider. By induction on the surrounding expression (as in C90), with inclusion instead of equal choices; the converse by expressions that fit only from one given position to another.
* C110 - Spec/Utf8, Proof/Utf8, Proof/Utf8Text, Props/Utf8. From the derivations of C84: a derivation of such an expression goes from one beginning of a character to another; a result that fits between them divides no character because lead bytes and trail bytes differ. For patterns by induction on the grammar of C52, following the number of missing bytes through the text. Only the structure of lead and trail bytes is used, so that overlong forms and surrogates count as UTF-8 too.
* C111 - Spec/Unicode, Proof/Unicode, Props/Unicode, Props/UnicodePattern (arbitrary bytes). The encoding is a homomorphism of languages, so that the language of the bytes (C54) is the image of the language of the characters; encodings can be taken apart in one way only, and a part of an encoding that is itself a nonempty encoding lies at boundaries. `Char` of Lean is the type of Unicode scalar values.
* C112 - Spec/Site, Proof/Site, Proof/DateSearch, Props/Site. What the expressions say (C92), word by word; the words can be taken apart in one way only. For the search, the first attempt at the date takes the whole year (C06).
* C113 - Spec/UnicodeOrder, Proof/UnicodeOrder, Props/UnicodeOrder. The list of ends in bytes (C06) is, up to repetitions of an end, the image of the list of ends in characters under a strictly increasing map; every way to repeat respects such maps. Inside of a character nothing can be read, and an expression that can do without reading has an attempt everywhere; so the leftmost place is a boundary. The groups by C10.
* C114 - Spec/UnicodePattern, Proof/UnicodePattern, Props/UnicodePattern. The trees of C111 are usable and can be written (C60), so they have patterns; Mathlib's regular expressions over characters translate into them, and every regular language has such an expression (C74). For the converse an automaton over bytes (C73) reads encoded characters.
* C115 - Props/Closure. The accepted texts are a regular language (C73), regular languages are closed under these operations (Mathlib), and each has a pattern (C74); the states of the automaton give the finite list of patterns. For references: a^n b a^n b is a square, and no shorter text obtained by leaving out letters of the first block is.

All properties are expressible. Where the code does not have the property as stated, the negation is proved with a witness
(theorem name contains `false`) and the part that does hold is proved as `_partial`.

## 5. Disagreements between code and property (proved as negations)

| # | what the code does | theorem |
|---|---|---|
| 1 | `regex_capture::operator bool` is true for empty captures and false for non-empty ones | `C44_capture_bool_false` |
| 2 | a failed `match`/`match_prefix` may have a non-empty group 0; how far it reaches depends on the iterator category and on the method | `C08_match_false`, `C08_matchPrefix_false`, `C24_failed_group0_differs`, `C50_failed_group0_false` |
| 3 | captures of abandoned atomic groups and lookarounds stay: `(?>(a))b\|ac` on `ac`, `a(?=(\w))x` on `abc` | `C12_false`, `C12_failure_false` |
| 4 | captures of failed attempts leak into later positions of `search` and are visible to references | `C05_end_false`, `C05_verdict_false` |
| 5 | `(a)*` leaves group 1 empty: the failing last attempt clears it; so do all unbounded greedy iterations | `C11_false`, `C11_iterations_forget`; lazy ones: `C11_lazy_false` |
| 6 | both branches of `(a)\|(b)` get group 1; `(?<x>a)\|(?<y>b)` cannot be used at all | `C41_false`, `C42_unusable` |
| 7 | the body of a lookaround inside of a lookbehind is not mirrored correctly | `C14_nested_ahead_false`, `C14_nested_behind_false`, `C10_false` |
| 8 | anchors in a lookbehind are not exchanged by mirroring | `C14_anchor_false` |
| 9 | `[\R-a]` is read as a range | `C40_false` |
| 10 | `ba{x\|c` loses the alternation structure, `{` at the start is an error | `C39_false`, `C39_false_start` |
| 11 | numerals are reduced modulo 2^64 | `C38_false` |
| 12 | `find_all` stops at the first empty match | `C31_find_all_false` |
| 13 | a possessive quantifier over a body that can match empty stops earlier than the greedy one; with `ungreedy` it differs, too | `C16_empty_body_false`, `C16_ungreedy_false` |
| 14 | multiline `^` decrements an iterator that is merely forward | `C01_forward_multiline_bol` |
| 15 | flattening a nested alternation changes which captures are cleared, visible to references | `C46_either_backref_false` |
| 16 | a pattern of group openers only, the last one `(?=`, `(?!`, `(?<=`, `(?<!`, `(?>` or `(?<name>`, is no syntax error but an ill-formed program | `C34_false`, `C34_illFormed_iff` |
| 17 | `(?:(a)(?:\|ax)\1)*b` matches `aaxb` although no path does | `C53_beyond` |
| 18 | a reference in a lookahead in a lookbehind compares the reversed text | `C27_two_layers_false` |
| 19 | whether a possessive regex matches a stretch depends on the text after it | `C47_false` |
| 20 | `match(std::array{...})` of a temporary returns views of a dead object: only types with a non-trivial destructor are copied | `C61_trivial_false` |
| 21 | `find_all`, `tokenize` etc. accept temporary strings and keep iterators into them | `C61_loops_false` |
| 22 | `transform_groups` of a regex without groups takes the pair or tuple that the function returns apart | `C65_transform_false` |
| 23 | not a violation, but not promised anywhere: the stack grows with the input (`(?:aa)*`, and `a*` for forward iterators), and the effort can be exponential (`(?:a+)+b`) | `C66_sharp`, `C67_exponential` |
| 24 | dropping a group that nothing refers to can change the verdict: `(?:(?:(a)\|a)(?:\2c\|)\|(b))*$` on `bac` (an alternation of characters is tried only once) | `C69_false` |
| 25 | a string literal with zeros inside is matched up to the first zero only; an array without a zero is read beyond its end (`char_range` excludes arrays, so they become C strings) | `C78_literal_false`, `C78_array_false` |
| 26 | characters of more than 8 bits are accepted (`convertible_to<char32_t>`) but compared modulo 256: `a` matches U+0161 in a `std::list<char32_t>` | `C78_range_false`, `C78_modulo`, `C78_modulo_all`, `C78_wide_false` (contiguous ranges of them do not compile) |
| 27 | the expression for URLs in README.md:93-96 is not equivalent to the pattern in the comment: the pattern demands a `:` in the group and has a wildcard for the dot | `C88_url_false`, `C88_url_converse_false` |
| 28 | `it++` on the iterators of ranges does not compile (input_range_adapter.hpp:66-71 makes an iterator of a pointer, the constructor in 46-48 takes a reference), although they are declared to be input iterators | `C95_postfix_false` |
| 29 | `auto other(range)` or `auto other{range}` with a non-const range selects the forwarding constructor (input_range_adapter.hpp:24-28) instead of the copy constructor: the copy begins one element later | `C95_copy_false` |
| 30 | every literal brace (`a{a{a`) leaves three symbols on the stack until the end of the pattern: the depth of recursion of the last step is linear, although state.hpp:55-56 says the fold is there to minimise it | `C97_braces_false` |
| 31 | every range in a set (`[a-bc-d]`) leaves one symbol on the stack until the end of the set, to the same effect | `C97_ranges_false` |
| 32 | `content() &&` of an owning capture returns an lvalue (regex_capture.hpp:173-176), so that `std::move(capture).content()` copies; `content() const &&` (178-181) does not compile when it is used | `C98_content_false` |
| 33 | the lambda in `as_memory_owner` (match_result.hpp:86) is `noexcept` although it copies, and so is `as_optional() const &&` of an owning result (by 278; 172 promises that it is not): without memory the program is terminated | `C98_terminates_false` |
| 34 | the body of `+` is instantiated twice, once for the first repetition and once for the loop (repetition.hpp:21-24, 84-87): nested quantifiers double what is compiled at every level; every value of a bound is a function of its own (repetition.hpp:85) | `C99_nested_false`, `C99_counts_false` |
| 35 | a reference to a group in a lookahead that took no part reads what an abandoned attempt left there: `(?:(?=(a))b\|a)\1` does not match `a` | `C11_stale_reference` |

Observed, not a property: the post-increment of the iterator of `input_range_adapter` does not compile; `{3,2}` and `[z-a]` pass the
parser and are refused by a `static_assert`; captures two reverse layers deep and references over forward iterators do not compile, nor does a character with a count of 2^63 or more (C107); expressions put together by `xpr` are not
renumbered, so that two patterns with groups joined by `>>` both have a group 1; `regex_capture::content() &&` returns an lvalue as `auto &&`, so that it still
is an lvalue reference; references two lookbehinds deep compare the characters in reverse order (C75).

## 6. Wrong programs

`seeded/LOG.jsonl` lists edits of the model that imitate realistic bugs, the claim each one breaks and the theorems that
failed to prove on the edited model.
