{"claims": [
 {"property": "C01", "status": "proved", "theorems": ["Mregex.C01_total", "Mregex.C01_methods_return", "Mregex.C01_forward_multiline_bol"], "note": "for regexes satisfying the static requirements; multiline ^ with merely forward iterators is undefined behaviour (C01_forward_multiline_bol)"},
 {"property": "C02", "status": "proved", "theorems": ["Mregex.C02_match_language"], "note": "fragment without backreferences, atomic groups and non-mirrorable lookbehinds, for which the language is declarative"},
 {"property": "C03", "status": "proved", "theorems": ["Mregex.C03_matchPrefix_language"], "note": "same fragment as C02"},
 {"property": "C04", "status": "proved", "theorems": ["Mregex.C04_search_leftmost"], "note": "same fragment as C02"},
 {"property": "C05", "status": "partial", "theorems": ["Mregex.C05_references_partial", "Mregex.C05_end_false", "Mregex.C05_verdict_false", "Mregex.C05_search_fresh_partial", "Mregex.C05_outside_partial", "Mregex.C05_walks_partial", "Mregex.C05_leftovers_partial"], "note": "false with backreferences (captures of failed attempts leak: C05_end_false, C05_verdict_false); proved for regexes without backreferences, and for all regexes in which no reference leads to a group inside of a lookaround, negation, atomic group or possessive quantifier, with the texts of the groups (C05_outside_partial), and if references to such groups come after these surely took part (C05_walks_partial, C05_leftovers_partial); the witnesses refer to a group in a lookahead that need not have taken part"},
 {"property": "C06", "status": "proved", "theorems": ["Mregex.C06_matchPrefix", "Mregex.C06_match", "Mregex.C06_search"], "note": "all backreference-free regexes, including possessive quantifiers, atomic groups and lookarounds"},
 {"property": "C07", "status": "proved", "theorems": ["Mregex.C07_match", "Mregex.C07_matchPrefix", "Mregex.C07_search"], "note": "match, match_prefix and search"},
 {"property": "C08", "status": "partial", "theorems": ["Mregex.C08_failed", "Mregex.C08_text", "Mregex.C08_match_false", "Mregex.C08_matchPrefix_false", "Mregex.C08_search_partial"], "note": "false for match and match_prefix (witnesses); proved for search. C08_failed: with match and match_prefix group 0 is always set, to a text at the beginning of the input; C08_text says exactly which one for literal texts: how far the input agrees with the text, or nothing with random access iterators"},
 {"property": "C09", "status": "proved", "theorems": ["Mregex.C09_groups_in_bounds", "Mregex.C09_generators"], "note": "for the methods, and for all calls of generators (C09_generators)"},
 {"property": "C10", "status": "partial", "theorems": ["Mregex.C10_false", "Mregex.C10_captured_text_partial", "Mregex.C10_derivation_partial", "Mregex.C10_ways_partial", "Mregex.C10_group_partial", "Mregex.C10_group_methods_partial"], "note": "For the declarative fragment and all three methods (C10_captured_text_partial); with references and possessive quantifiers outside of the group (C10_group_partial) and inside of it, as derivations (C10_derivation_partial), for generators too; for every regex the text is a way to match the body in the direction in which it is read (C10_ways_partial). False beyond: a lookahead inside of a lookbehind is not mirrored, so (?<=(a(?=cb)bc)) captures abc (C10_false)."},
 {"property": "C11", "status": "partial", "theorems": ["Mregex.C11_false", "Mregex.C11_iterations_forget", "Mregex.C11_last_participation_partial", "Mregex.C11_keeps_partial", "Mregex.C11_lazy_false", "Mregex.C11_trail_ranges", "Mregex.C11_trails_partial", "Mregex.C11_trails_are_paths", "Mregex.C11_walks_are_paths", "Mregex.C11_walks_are_trails", "Mregex.C11_walk_ranges", "Mregex.C11_walks_partial", "Mregex.C11_stale_reference"], "note": "Exact for groups that cannot be tried again after they took part; groups in iterated parts hold the text of the last participation or no text at all. That they keep it is false: (a)* leaves group 1 empty (C11_false), and so does every unbounded greedy iteration (C11_iterations_forget). Fixed numbers of rounds and lazy iterations with one way on after the group keep it (C11_keeps_partial); other lazy ones do not (C11_lazy_false). For regexes without references the same holds for groups inside lookarounds, negations and possessive constructs, along trails that contain the events of the first trail of such a part (C11_trails_partial); trails are paths where these parts contain no groups (C11_trails_are_paths). With references the same holds along walks (C11_walks_partial, C11_walk_ranges), which extend the paths (C11_walks_are_paths) and the trails (C11_walks_are_trails), also for groups and references inside lookarounds, negations and possessive parts, so (?=(a+))\\1 is covered. References to groups in such parts must be to groups that surely took part: others read what an abandoned attempt left behind (C11_stale_reference)."},
 {"property": "C12", "status": "partial", "theorems": ["Mregex.C12_false", "Mregex.C12_failure_false", "Mregex.C12_no_leftovers_partial", "Mregex.C12_failure_partial", "Mregex.C12_outside_partial", "Mregex.C12_walks_partial"], "note": "Groups that are not on the path of the match hold no text, and no group does after a failure, if lookarounds and possessive constructs contain no groups. For regexes without references this holds for every group outside of these parts, whatever groups are inside (C12_outside_partial). With references it holds likewise along walks (C12_walks_partial). After a failure it holds for every group outside of these parts whatever references there are (C12_failure_partial). For groups inside the claim is false (C12_false, C12_failure_false)."},
 {"property": "C13", "status": "proved", "theorems": ["Mregex.C13_lookahead", "Mregex.C13_negative_lookahead", "Mregex.C13_any_body"], "note": "language form for declarative bodies, equivalence with match_prefix of the body for all bodies"},
 {"property": "C14", "status": "partial", "theorems": ["Mregex.C14_lookbehind_partial", "Mregex.C14_negative_lookbehind_partial", "Mregex.C14_anchor_false", "Mregex.C14_nested_ahead_false", "Mregex.C14_nested_behind_false"], "note": "false for bodies with anchors or nested lookarounds (witnesses); proved for bodies whose mirror image is faithful"},
 {"property": "C15", "status": "proved", "theorems": ["Mregex.C15_atomic"], "note": "backreference-free bodies in terms of the ordered matches"},
 {"property": "C16", "status": "partial", "theorems": ["Mregex.C16_possessive_partial", "Mregex.C16_expand_partial", "Mregex.C16_empty_body_false", "Mregex.C16_ungreedy_false", "Mregex.C16_eager_partial"], "note": "false with the ungreedy flag and for unbounded repetition of bodies that can match the empty text (witnesses); exact equality of matchers and of all results otherwise; with ungreedy it is the atomic group around the lazy quantifier (C16_eager_partial, all flags)"},
 {"property": "C17", "status": "proved", "theorems": ["Mregex.C17_input_start", "Mregex.C17_input_end", "Mregex.C17_line_start", "Mregex.C17_line_end"], "note": "multiline ^ needs bidirectional iterators"},
 {"property": "C18", "status": "proved", "theorems": ["Mregex.C18_word_boundary", "Mregex.C18_not_word_boundary"], "note": ""},
 {"property": "C19", "status": "proved", "theorems": ["Mregex.C19_icase"], "note": ""},
 {"property": "C20", "status": "proved", "theorems": ["Mregex.C20_wildcard", "Mregex.C20_dotall_irrelevant"], "note": ""},
 {"property": "C21", "status": "proved", "theorems": ["Mregex.C21_ungreedy_swaps", "Mregex.C21_ungreedy_verdict"], "note": ""},
 {"property": "C22", "status": "proved", "theorems": ["Mregex.C22_unroll"], "note": ""},
 {"property": "C23", "status": "proved", "theorems": ["Mregex.C23_flag_set", "Mregex.C23_add_flags", "Mregex.C23_clear_flags"], "note": ""},
 {"property": "C24", "status": "proved", "theorems": ["Mregex.C24_category", "Mregex.C24_failed_group0_differs"], "note": "for regexes satisfying the static requirements of both categories; group 0 of a failed match does differ (C24_failed_group0_differs)"},
 {"property": "C25", "status": "proved", "theorems": ["Mregex.C25_quantifier_bounds", "Mregex.C25_possessive_bounds", "Mregex.C25_copies"], "note": ""},
 {"property": "C26", "status": "proved", "theorems": ["Mregex.C26_greediness_verdict"], "note": ""},
 {"property": "C27", "status": "partial", "theorems": ["Mregex.C27_forward_partial", "Mregex.C27_backward_partial", "Mregex.C27_unset", "Mregex.C27_odd_partial", "Mregex.C27_even", "Mregex.C27_palindromes_partial", "Mregex.C27_named", "Mregex.C27_two_layers_false"], "note": "Reading forwards, reading backwards at every depth (C27_odd_partial), unset groups at every layer, references by name. False inside of a lookahead in a lookbehind, where the text is compared in reverse order (C27_two_layers_false); C27_even says exactly what happens there, so that only texts that read the same in both directions are copied (C27_palindromes_partial)."},
 {"property": "C28", "status": "proved", "theorems": ["Mregex.C28_squares", "Mregex.C28_exact_squares"], "note": "match() of (X)\\1 for every X without groups, references, assertions and possessive constructs; with icase the copy is up to case."},
 {"property": "C29", "status": "proved", "theorems": ["Mregex.C29_tokenizer"], "note": ""},
 {"property": "C30", "status": "proved", "theorems": ["Mregex.C30_searcher"], "note": ""},
 {"property": "C31", "status": "partial", "theorems": ["Mregex.C31_references_partial", "Mregex.C31_find_all_false", "Mregex.C31_find_all_partial", "Mregex.C31_complete_partial", "Mregex.C31_outside_partial", "Mregex.C31_walks_partial"], "note": "false: find_all() stops after the first empty match (C31_find_all_false); proved: the results are the iterated searches up to the first empty match (all regexes without backreferences, and all with references to groups outside of lookarounds and possessive parts: C31_outside_partial, or to groups in there that surely took part: C31_walks_partial), complete when there is no empty match"},
 {"property": "C32", "status": "proved", "theorems": ["Mregex.C32_stays_exhausted", "Mregex.C32_exhausted"], "note": ""},
 {"property": "C33", "status": "proved", "theorems": ["Mregex.C33_range"], "note": ""},
 {"property": "C34", "status": "partial", "theorems": ["Mregex.C34_verdicts", "Mregex.C34_illFormed_iff", "Mregex.C34_false", "Mregex.C34_verdict_partial"], "note": "Every pattern gives a tree, a syntax error at a position of the pattern or its end, or an ill-formed program; the last case is characterised exactly (C34_illFormed_iff) and shows that the statement is false as written (C34_false: the pattern (?= ). C34_verdict_partial proves it for all other patterns."},
 {"property": "C35", "status": "proved", "theorems": ["Mregex.C35_hex", "Mregex.C35_backslash"], "note": "hexadecimal escapes and backslash escapes"},
 {"property": "C36", "status": "proved", "theorems": ["Mregex.C36_parse_print", "Mregex.C36_any_numbers", "Mregex.C36_normal", "Mregex.C36_roundtrip"], "note": "normal form: what the parser builds, shown exact by C36_normal"},
 {"property": "C37", "status": "proved", "theorems": ["Mregex.C37_hex", "Mregex.C37_set", "Mregex.C37_range", "Mregex.C37_anywhere", "Mregex.C37_all"], "note": ""},
 {"property": "C38", "status": "partial", "theorems": ["Mregex.C38_modulo", "Mregex.C38_quantifiers_partial", "Mregex.C38_backrefs_partial", "Mregex.C38_false"], "note": "false for numerals of 2^64 and above, which are read modulo 2^64 (C38_false, C38_modulo); proved for all smaller ones"},
 {"property": "C39", "status": "partial", "theorems": ["Mregex.C39_exact", "Mregex.C39_exact_pattern", "Mregex.C39_same_partial", "Mregex.C39_pattern_partial", "Mregex.C39_group_partial", "Mregex.C39_first_partial", "Mregex.C39_false", "Mregex.C39_false_start"], "note": "false when alternatives follow the brace and something precedes the quantified part (C39_false) and for a brace where nothing can be quantified (C39_false_start); proved for braces in the last alternative of a pattern or a group and for braces after the first part; C39_exact says how such a brace is read: like an escaped one in a group that reaches to the end"},
 {"property": "C40", "status": "partial", "theorems": ["Mregex.C40_set_partial", "Mregex.C40_complement_partial", "Mregex.C40_example", "Mregex.C40_false", "Mregex.C40_exact", "Mregex.C40_accepted", "Mregex.C40_items", "Mregex.C40_exact_example"], "note": "false for \\R followed by a minus sign, which forms a range (C40_false); proved for all other item lists, with any flags, at any position; C40_exact says what the exception contains, C40_accepted that nothing else is accepted between brackets"},
 {"property": "C41", "status": "partial", "theorems": ["Mregex.C41_order", "Mregex.C41_iff", "Mregex.C41_partial", "Mregex.C41_false"], "note": "false when two branches of an alternation have groups (C41_false); C41_iff shows that these are the only exceptions"},
 {"property": "C42", "status": "proved", "theorems": ["Mregex.C42_group", "Mregex.C42_backref", "Mregex.C42_parsed", "Mregex.C42_written", "Mregex.C42_unusable"], "note": "for regexes that satisfy the static requirements of the library; C42_unusable shows that (?<x>a)|(?<y>b) does not"},
 {"property": "C43", "status": "proved", "theorems": ["Mregex.C43_classes"], "note": ""},
 {"property": "C44", "status": "partial", "theorems": ["Mregex.C44_verdict", "Mregex.C44_as_memory_owner", "Mregex.C44_capture_bool_false", "Mregex.C44_capture_bool_partial"], "note": "false for the conversion of captures to bool, which is inverted (C44_capture_bool_false); everything else proved"},
 {"property": "C45", "status": "proved", "theorems": ["Mregex.C45_classification", "Mregex.C45_case", "Mregex.C45_invert_case"], "note": ""},
 {"property": "C46", "status": "partial", "theorems": ["Mregex.C46_flattening_partial", "Mregex.C46_either_partial", "Mregex.C46_concat", "Mregex.C46_concat_language", "Mregex.C46_either_language", "Mregex.C46_either_order", "Mregex.C46_either_backref_false", "Mregex.C46_str", "Mregex.C46_either_groups_partial"], "note": "concatenation (all results, any operands), languages, order and strings proved; flattening proved for all results, with all groups, of any expression without references (C46_flattening_partial), and with references if the dissolved operands do not end in a character; false otherwise (C46_either_backref_false)"},
 {"property": "C47", "status": "partial", "theorems": ["Mregex.C47_false", "Mregex.C47_stretch_partial", "Mregex.C47_reported_partial", "Mregex.C47_found_partial", "Mregex.C47_before"], "note": "Verdict on a stretch inside of any surroundings equals match() on the stretch alone, for regexes without possessive constructs; false with them (C47_false). The text before is irrelevant for possessive constructs, too."},
 {"property": "C48", "status": "proved", "theorems": ["Mregex.C48_mirror", "Mregex.C48_involution"], "note": "Language of the mirrored regex; mirroring twice is the identity on every AST."},
 {"property": "C49", "status": "proved", "theorems": ["Mregex.C49_not_zero_length", "Mregex.C49_language"], "note": ""},
 {"property": "C50", "status": "partial", "theorems": ["Mregex.C50_match_is_prefix_with_end_partial", "Mregex.C50_failed_group0_false"], "note": "false for group 0 of a failed call (C50_failed_group0_false); everything else proved"},
 {"property": "C51", "status": "proved", "theorems": ["Mregex.C51_concat", "Mregex.C51_reverse", "Mregex.C51_reverse_get", "Mregex.C51_stack", "Mregex.C51_uses"], "note": "Blockwise concatenation and reversal for all lengths, stack operations, and their uses by invert and capture_name_spec."},
 {"property": "C52", "status": "proved", "theorems": ["Mregex.C52_grammar", "Mregex.C52_unambiguous", "Mregex.C52_rejected"], "note": "the grammar Spec.Pattern records two quirks of the code: a brace that starts no quantifier and a minus sign after \\R"},
 {"property": "C53", "status": "proved", "theorems": ["Mregex.C53_first_path", "Mregex.C53_beyond"], "note": "Exact for traceable regexes, the fragment of the statement; false beyond it, (?:(a)(?:|ax)\\1)*b matches aaxb without any path (C53_beyond)."},
 {"property": "C54", "status": "proved", "theorems": ["Mregex.C54_match", "Mregex.C54_matchPrefix", "Mregex.C54_search", "Mregex.C54_equivalent"], "note": "Language is Mathlib's; fragment: no references, assertions, possessive constructs."},
 {"property": "C55", "status": "proved", "theorems": ["Mregex.C55_forward", "Mregex.C55_backward", "Mregex.C55_language", "Mregex.C55_sequence", "Mregex.C55_repetition"], "note": ""},
 {"property": "C56", "status": "proved", "theorems": ["Mregex.C56_group_count"], "note": "for patterns that can be used (C57)"},
 {"property": "C57", "status": "proved", "theorems": ["Mregex.C57_usable", "Mregex.C57_groups", "Mregex.C57_nested"], "note": "usable = satisfies the static requirements Ok (C107 derives Ok from the functions that are instantiated; counts of 2^63 and more are treated there; parts under {0} are held to the requirements although no function of theirs is instantiated); C57_nested: a group in a lookahead in a lookbehind cannot be used, in a lookbehind in a lookbehind it can"},
 {"property": "C58", "status": "proved", "theorems": ["Mregex.C58_compiles", "Mregex.C58_flags", "Mregex.C58_groups", "Mregex.C58_means", "Mregex.C58_language", "Mregex.C58_order", "Mregex.C58_preferred", "Mregex.C58_assoc", "Mregex.C58_marks"], "note": "Preferred ends for all usable regexes, the reported match for those without references. For the verdicts by meaning: usable regexes without references and possessive parts (the declarative ones), as in C02-C04; the meaning of the tree, its groups and flags without restriction. Usable is what C57 says about trees."},
 {"property": "C59", "status": "proved", "theorems": ["Mregex.C59_relaid_usable", "Mregex.C59_relaid_results", "Mregex.C59_relaid_ranges", "Mregex.C59_usable", "Mregex.C59_results", "Mregex.C59_ranges"], "note": "The laws are the relation Variant (Spec/Variants), without references also Relaid (Spec/Branches); in an odd number of lookbehinds the laws for lookarounds at assertions are the mirrored ones."},
 {"property": "C60", "status": "proved", "theorems": ["Mregex.C60_pattern", "Mregex.C60_expression"], "note": "The pattern depends on the flags (classes are written out character by character); Writable: numbers fit into 64 bits, names are names."},
 {"property": "C61", "status": "partial", "theorems": ["Mregex.C61_methods_partial", "Mregex.C61_trivial_false", "Mregex.C61_loops_partial", "Mregex.C61_loops_false"], "note": "False as stated: temporaries with trivial destructors (std::array) give views of dead objects (C61_trivial_false), and the lazy functions accept temporary strings without keeping them (C61_loops_false); everything else is covered."},
 {"property": "C62", "status": "proved", "theorems": ["Mregex.C62_methods", "Mregex.C62_generators", "Mregex.C62_ranges", "Mregex.C62_usable", "Mregex.C62_no_groups"], "note": "Renumbering: an injective map of the groups that stay, 0 is reserved. C62_methods supposes that the new regex can be used, C62_usable gives that if its groups are numbered and named as its type says."},
 {"property": "C63", "status": "proved", "theorems": ["Mregex.C63_scripts", "Mregex.C63_generators"], "note": "The steps are Spec/Script; a group is crossed out (made empty) when what follows it has failed, as in capture.hpp."},
 {"property": "C64", "status": "proved", "theorems": ["Mregex.C64_position", "Mregex.C64_upto", "Mregex.C64_viable"], "note": "Both directions, for all texts and positions, with the grammar of C52 as the notion of pattern. At the end of the text the ill-formed programs of C34 are the exception, and they can be continued, too."},
 {"property": "C65", "status": "partial", "theorems": ["Mregex.C65_visits", "Mregex.C65_transform_false", "Mregex.C65_transform_partial", "Mregex.C65_owner", "Mregex.C65_texts"], "note": "False for transform_groups as stated: std::tuple{...} of one pair or tuple takes it apart, so without capturing groups and with such a function the result has other elements (C65_transform_false); everything else is covered."},
 {"property": "C66", "status": "proved", "theorems": ["Mregex.C66_measured", "Mregex.C66_linear", "Mregex.C66_flat", "Mregex.C66_sharp"], "note": "Counts calls of match functions of nodes (Model/Meter); frames of helpers between two of them are a constant number."},
 {"property": "C67", "status": "proved", "theorems": ["Mregex.C67_polynomial", "Mregex.C67_degree", "Mregex.C67_sharp", "Mregex.C67_exponential", "Mregex.C67_unbounded"], "note": "steady (Spec/Effort) is sufficient, not necessary."},
 {"property": "C68", "status": "proved", "theorems": ["Mregex.C68_methods", "Mregex.C68_generators"], "note": "The procedure (Spec/Proc) says what is tried in which order and what is noted; it covers references. The map from names to group numbers is any that agrees with the groups of the regex."},
 {"property": "C69", "status": "proved", "theorems": ["Mregex.C69_methods", "Mregex.C69_generators", "Mregex.C69_ranges", "Mregex.C69_renumbered", "Mregex.C69_false"], "note": "The general claim without the condition on alternatives is refuted by C69_false."},
 {"property": "C70", "status": "proved", "theorems": ["Mregex.C70_usable", "Mregex.C70_results", "Mregex.C70_ranges"], "note": "Bodies that are copied have no groups (a group may occur only once); unfolding a star needs a body that reads."},
 {"property": "C71", "status": "proved", "theorems": ["Mregex.C71_literal", "Mregex.C71_pack", "Mregex.C71_same", "Mregex.C71_names", "Mregex.C71_distance", "Mregex.C71_reversed"], "note": "Arrays are lists; a length that does not fit is a program that does not compile."},
 {"property": "C72", "status": "proved", "theorems": ["Mregex.C72_call", "Mregex.C72_ranges"], "note": "For ^, word boundaries and lookbehinds the claim is false by design (example beside the theorems). Group 0 of a failed call is not compared."},
 {"property": "C73", "status": "proved", "theorems": ["Mregex.C73_regular", "Mregex.C73_references"], "note": "Regular in the sense of Mathlib's Language.IsRegular (accepted by a DFA). The automaton is shown to exist, its size is not bounded."},
 {"property": "C74", "status": "proved", "theorems": ["Mregex.C74_expression", "Mregex.C74_language", "Mregex.C74_exactly"], "note": "Uses Mathlib's RegularExpression and Language.IsRegular; the half of Kleene's theorem that Mathlib lacks is in Proof/Automata."},
 {"property": "C75", "status": "proved", "theorems": ["Mregex.C75_call", "Mregex.C75_generators", "Mregex.C75_lookbehind"], "note": "C75_call on the level of match_prefix with given group names, C75_generators for two regexes, C75_lookbehind declaratively. References two lookbehinds deep are excluded; a witness beside the theorems shows that it is false for them."},
 {"property": "C76", "status": "proved", "theorems": ["Mregex.C76_generators", "Mregex.C76_search"], "note": "For every usable regex, from every position. With the flag ungreedy the quantifier in front is written greedy, which means the same."},
 {"property": "C77", "status": "proved", "theorems": ["Mregex.C77_usable", "Mregex.C77_results", "Mregex.C77_ranges", "Mregex.C77_pattern"], "note": "icase with references is excluded: (a)\\1 then also accepts aA, which no class in the group and no plain reference expresses (example beside the theorem)."},
 {"property": "C78", "status": "partial", "theorems": ["Mregex.C78_range_partial", "Mregex.C78_range_false", "Mregex.C78_modulo", "Mregex.C78_literal_partial", "Mregex.C78_literal_false", "Mregex.C78_array_false", "Mregex.C78_language_partial", "Mregex.C78_all_partial", "Mregex.C78_wide_false", "Mregex.C78_modulo_all"], "note": "Proved for ranges of characters with codes up to 255 and for literals without zeros. False for literals with zeros, whose text ends at the first one (C78_literal_false), for arrays without a zero, which are read beyond their end (C78_array_false), and for wider characters, which are looked at modulo 256 (C78_range_false, C78_modulo, C78_modulo_all): a matches U+0161; contiguous ranges of them do not compile (C78_wide_false). C78_all_partial: methods, generators and loops."},
 {"property": "C79", "status": "proved", "theorems": ["Mregex.C79_usable", "Mregex.C79_prefix", "Mregex.C79_match", "Mregex.C79_once"], "note": "Both sides carry out the same procedure (C68): an anchor in front filters the attempts of a search down to the one at the start, and an anchor behind filters the offers as match does; attempts at later positions are empty procedures."},
 {"property": "C80", "status": "proved", "theorems": ["Mregex.C80_usable", "Mregex.C80_results", "Mregex.C80_ranges"], "note": "All three modes have the same procedure (C68) after which nothing but the longest run is continued: by induction on the number of rounds, since what follows offers nothing where another round is possible; closed under all places like C70."},
 {"property": "C81", "status": "proved", "theorems": ["Mregex.C81_methods", "Mregex.C81_generators", "Mregex.C81_short", "Mregex.C81_long"], "note": "C81_methods, C81_generators (match and groups), C81_short, C81_long."},
 {"property": "C82", "status": "proved", "theorems": ["Mregex.C82_inside_match", "Mregex.C82_nested", "Mregex.C82_in_order", "Mregex.C82_methods"], "note": "Inside the match, nested, in order: proved for each generator call and for the three methods. Concrete results show that iterated, possessive and looked-at parts have to be excluded."},
 {"property": "C83", "status": "proved", "theorems": ["Mregex.C83_generators", "Mregex.C83_methods", "Mregex.C83_ranges", "Mregex.C83_renamed"], "note": "For each generator call, the three methods, and the ranges; as a corollary for renamings of characters. An example shows that the condition on references cannot be left out."},
 {"property": "C84", "status": "proved", "theorems": ["Mregex.C84_generators", "Mregex.C84_methods", "Mregex.C84_nothing", "Mregex.C84_language", "Mregex.C84_declarative"], "note": "Derivations are an inductive relation without any order (Spec/Derives); without references they are the usual matches (C84_declarative). Restricted to lookbehinds that the code mirrors correctly, since C14 is false beyond."},
 {"property": "C85", "status": "proved", "theorems": ["Mregex.C85_loosened", "Mregex.C85_generators", "Mregex.C85_methods", "Mregex.C85_no_start", "Mregex.C85_no_need", "Mregex.C85_leading"], "note": "No restriction beyond usability. The sets are upper bounds: a character in the set of first characters need not begin a match (a lookahead can forbid it); for references all characters are in the sets."},
 {"property": "C86", "status": "proved", "theorems": ["Mregex.C86_values", "Mregex.C86_only", "Mregex.C86_patterns", "Mregex.C86_date"], "note": "The fields contain no groups of their own; without the separation both halves fail (examples beside the theorems)."},
 {"property": "C87", "status": "proved", "theorems": ["Mregex.C87_stretches", "Mregex.C87_eager", "Mregex.C87_lengths", "Mregex.C87_words", "Mregex.C87_example_range", "Mregex.C87_example_searcher"], "note": "Classes of one character at a time; the general statement about find_all is C31."},
 {"property": "C88", "status": "partial", "theorems": ["Mregex.C88_url_false", "Mregex.C88_url_converse_false", "Mregex.C88_word_partial", "Mregex.C88_words_partial", "Mregex.C88_empty_set_partial", "Mregex.C88_everything_partial", "Mregex.C88_notes_partial"], "note": "False as stated: the expression for URLs and the pattern beside it are not equivalent; each matches texts that the other does not (C88_url_false). Everything else in the statement is proved."},
 {"property": "C89", "status": "proved", "theorems": ["Mregex.C89_formula", "Mregex.C89_operations", "Mregex.C89_equivalent", "Mregex.C89_methods"], "note": "Boolean formulas of patterns as patterns, for `match`; `match_prefix` and `search` by `match`. The patterns are texts and the parser is part of the statement. Names are excluded for formulas because the library rejects some trees in which named groups stand in alternatives (C42_unusable)."},
 {"property": "C90", "status": "proved", "theorems": ["Mregex.C90_sound", "Mregex.C90_interchangeable", "Mregex.C90_witness", "Mregex.C90_groups", "Mregex.C90_steps", "Mregex.C90_order_matters", "Mregex.C90_forward", "Mregex.C90_backward", "Mregex.C90_twice", "Mregex.C90_references_differ"], "note": "C90_interchangeable is the equivalence; C90_witness gives a group-free surrounding pattern in which search tells the parts apart; C90_groups covers groups and references around the parts; C90_steps is for arbitrary surroundings. C90_references_differ shows that the restriction to surroundings without references is needed: (?:ab|ab)(?:\\1c|(?=(x))z) matches abxc, with ab for (?:ab|ab) it does not."},
 {"property": "C91", "status": "proved", "theorems": ["Mregex.C91_attempt", "Mregex.C91_find_all", "Mregex.C91_search", "Mregex.C91_empty_matters", "Mregex.C91_references_matter"], "note": "Procedures (C68) of a window of a text are those of the window alone, by induction on the regex; fresh attempts (C05) and iterated searches (C31) compose along the pieces. C91_empty_matters and C91_references_matter show that the two conditions on find_all and search are needed."},
 {"property": "C92", "status": "proved", "theorems": ["Mregex.C92_match", "Mregex.C92_prefix", "Mregex.C92_search", "Mregex.C92_unambiguous", "Mregex.C92_preferences", "Mregex.C92_ambiguous_matters"], "note": "Spec/Says describes words and memories without positions and without preferences; the paths of C53 say words (told_paths) and every word that is said has a path (offers_paths). C92_ambiguous_matters shows that the condition of C92_unambiguous and C92_preferences is needed."},
 {"property": "C93", "status": "proved", "theorems": ["Mregex.C93_url", "Mregex.C93_unique"], "note": "From C92: the expression says exactly the URLs (says_url), and a URL can be taken apart in one way (url_unique). The pattern text is parsed by the model of the parser."},
 {"property": "C94", "status": "proved", "theorems": ["Mregex.C94_satisfiable", "Mregex.C94_size"], "note": "Via C92: what the pattern says is exactly the choice of one of two groups per variable and the truth of all clauses. C36 gives the tree of the pattern."},
 {"property": "C95", "status": "partial", "theorems": ["Mregex.C95_programs_partial", "Mregex.C95_undefined", "Mregex.C95_postfix_false", "Mregex.C95_copy_false", "Mregex.C95_second_loop"], "note": "False as stated: `C95_postfix_false` (`it++` does not compile), `C95_copy_false` (direct initialisation from a non-const range skips an element). `C95_programs_partial` gives the exact meaning of all programs without `it++`, and the stated one without both; `C95_second_loop` the two loops."},
 {"property": "C96", "status": "proved", "theorems": ["Mregex.C96_tokens", "Mregex.C96_references", "Mregex.C96_classes", "Mregex.C96_partition", "Mregex.C96_example"], "note": "`C96_tokens` (no references) and `C96_references` (traceable references): the ranges visited by a loop are what `Takes` says, which determines them (`takes_unique`). `C96_classes`, `C96_partition`: alternations of repeated classes; `C96_example`: `\\w+|\\W+` from its text."},
 {"property": "C97", "status": "partial", "theorems": ["Mregex.C97_depth_partial", "Mregex.C97_work", "Mregex.C97_size", "Mregex.C97_braces_false", "Mregex.C97_ranges_false", "Mregex.C97_depth_false"], "note": "False as stated for the depth: `C97_depth_false`, by `C97_braces_false` (`a{a{a...`, 3n+5 for n braces) and `C97_ranges_false` (`[a-ba-b...]`, n+3 for n ranges). `C97_depth_partial` bounds the depth by 15 + 6 n for n braces and dashes, hence by a constant for patterns without them; `C97_work` and `C97_size` are the linear bounds, for all patterns."},
 {"property": "C98", "status": "partial", "theorems": ["Mregex.C98_accessors_partial", "Mregex.C98_content_false", "Mregex.C98_stable", "Mregex.C98_owner", "Mregex.C98_temporary", "Mregex.C98_init", "Mregex.C98_failures_partial", "Mregex.C98_input", "Mregex.C98_print", "Mregex.C98_dangling", "Mregex.C98_views", "Mregex.C98_call", "Mregex.C98_optional", "Mregex.C98_write", "Mregex.C98_terminates_false"], "note": "False as stated: `C98_content_false` (`content()` of expiring captures is an lvalue, of const ones does not compile), `C98_terminates_false` (three ways in which a failing copy terminates the program). `C98_accessors_partial` is the statement for all other accessors, `C98_failures_partial` says that nothing else terminates a program and that exceptions only come from failing copies; `C98_stable`, `C98_owner`, `C98_temporary`, `C98_init`, `C98_call`, `C98_optional`, `C98_write`, `C98_input`, `C98_print`, `C98_dangling`, `C98_views` are the rest, for all programs."},
 {"property": "C99", "status": "partial", "theorems": ["Mregex.C99_finite", "Mregex.C99_size_partial", "Mregex.C99_copies", "Mregex.C99_nested_false", "Mregex.C99_counts_false"], "note": "Finiteness is proved for all trees (`C99_finite`, with an explicit bound). The polynomial bound is false as stated: `C99_nested_false`, `C99_counts_false`. `C99_size_partial` is the bound (20 n + 4) B^d for patterns of length n whose quantifiers stand for at most B copies and are nested at most d deep; `C99_copies`: B = 1 for `*` and `?`, 2 for `+`."},
 {"property": "C100", "status": "proved", "theorems": ["Mregex.C100_means", "Mregex.C100_usable", "Mregex.C100_every", "Mregex.C100_unique", "Mregex.C100_loops", "Mregex.C100_one"], "note": "`C100_means`, `C100_loops`, `C100_usable`, `C100_every`, `C100_unique`, `C100_one`. Patterns with references have no meaning of this kind (see C68); the meaning of other lookbehinds is in C75."},
 {"property": "C101", "status": "proved", "theorems": ["Mregex.C101_unseen", "Mregex.C101_generators", "Mregex.C101_stream", "Mregex.C101_calls", "Mregex.C101_prefix", "Mregex.C101_search"], "note": "`C101_unseen`, `C101_generators`, `C101_stream`, `C101_calls`, `C101_prefix`, `C101_search`. The positions are those of the procedure (C68) asking for characters; an implementation that looks at further characters without using them is not excluded."},
 {"property": "C102", "status": "proved", "theorems": ["Mregex.C102_usable", "Mregex.C102_results", "Mregex.C102_ranges", "Mregex.C102_without_group", "Mregex.C102_forward", "Mregex.C102_lookbehind"], "note": "`C102_usable`, `C102_results`, `C102_ranges`, `C102_without_group` (with C69), `C102_forward`, `C102_lookbehind` (where it ends)."},
 {"property": "C103", "status": "proved", "theorems": ["Mregex.C103_short", "Mregex.C103_sometimes", "Mregex.C103_never", "Mregex.C103_always", "Mregex.C103_same", "Mregex.C103_within", "Mregex.C103_apart", "Mregex.C103_endless"], "note": "`C103_short`, `C103_sometimes`, `C103_never`, `C103_always`, `C103_same`, `C103_within`, `C103_apart`, `C103_endless`. The number is computable but astronomically large."},
 {"property": "C104", "status": "proved", "theorems": ["Mregex.C104_choices", "Mregex.C104_exchangeable", "Mregex.C104_alike", "Mregex.C104_alike_calls", "Mregex.C104_alike_loops"], "note": "`C104_choices`, `C104_exchangeable` (with C90), `C104_alike`, `C104_alike_calls`, `C104_alike_loops`."},
 {"property": "C105", "status": "proved", "theorems": ["Mregex.C105_doubt", "Mregex.C105_pattern", "Mregex.C105_record", "Mregex.C105_errs", "Mregex.C105_not_enumerable", "Mregex.C105_undecidable", "Mregex.C105_same", "Mregex.C105_within", "Mregex.C105_no_bound", "Mregex.C105_no_bound_same"], "note": "`C105_doubt`, `C105_pattern`, `C105_record`, `C105_errs`, `C105_not_enumerable`, `C105_undecidable`, `C105_same`, `C105_within`, `C105_no_bound`, `C105_no_bound_same`."},
 {"property": "C106", "status": "proved", "theorems": ["Mregex.C106_sample", "Mregex.C106_possible", "Mregex.C106_sample_found", "Mregex.C106_refusal", "Mregex.C106_refusal_ok", "Mregex.C106_errs", "Mregex.C106_undecidable", "Mregex.C106_no_bound"], "note": "`C106_possible`, `C106_sample`, `C106_sample_found`, `C106_refusal`, `C106_refusal_ok`, `C106_errs`, `C106_undecidable`, `C106_no_bound`."},
 {"property": "C107", "status": "proved", "theorems": ["Mregex.C107_exact", "Mregex.C107_enough", "Mregex.C107_patterns", "Mregex.C107_patterns_exact", "Mregex.C107_counts"], "note": "`C107_exact` (trees in which nothing is repeated zero times), `C107_enough` (all trees), `C107_patterns`, `C107_patterns_exact`, `C107_counts`. It derives `Ok`, which is a hypothesis elsewhere, from the demands of the single functions."},
 {"property": "C108", "status": "proved", "theorems": ["Mregex.C108_decode", "Mregex.C108_covered", "Mregex.C108_calls", "Mregex.C108_loops", "Mregex.C108_exact", "Mregex.C108_decidable"], "note": "`C108_decode`, `C108_covered`, `C108_calls`, `C108_loops`, `C108_exact`, `C108_decidable`. The empty text must not be accepted for the first two (tokenize stops at an empty match, C96)."},
 {"property": "C109", "status": "proved", "theorems": ["Mregex.C109_more", "Mregex.C109_fewer", "Mregex.C109_leftmost", "Mregex.C109_references", "Mregex.C109_exact", "Mregex.C109_absorbs", "Mregex.C109_decidable", "Mregex.C109_inside", "Mregex.C109_alternatives", "Mregex.C109_alternative", "Mregex.C109_bounds", "Mregex.C109_once", "Mregex.C109_assertion", "Mregex.C109_atomic"], "note": "`C109_more`, `C109_fewer`, `C109_leftmost`, `C109_references`, `C109_exact`, `C109_absorbs`, `C109_decidable`, `C109_inside` and the rules `C109_alternatives`, `C109_alternative`, `C109_bounds`, `C109_once`, `C109_assertion`; `C109_atomic` is the counterexample for atomic parts."},
 {"property": "C110", "status": "proved", "theorems": ["Mregex.C110_generators", "Mregex.C110_methods", "Mregex.C110_pattern", "Mregex.C110_divided"], "note": "`C110_generators` and `C110_methods` for trees, `C110_pattern` for the text of patterns; `C110_divided` shows that the conditions are needed. Empty matches may lie inside a character (a search tries all positions)."},
 {"property": "C111", "status": "proved", "theorems": ["Mregex.C111_match", "Mregex.C111_match_bytes", "Mregex.C111_matchPrefix", "Mregex.C111_search", "Mregex.C111_findAll", "Mregex.C111_tokenize", "Mregex.C111_matchPrefix_bytes", "Mregex.C111_search_bytes", "Mregex.C111_findAll_bytes", "Mregex.C111_tokenize_bytes"], "note": "The expressions have no possessive quantifiers and no assertions. `C111_match`, `C111_matchPrefix`, `C111_search`, `C111_findAll`, `C111_tokenize` on encoded texts, the same with `_bytes` on arbitrary bytes. Of several texts in the language that begin at the leftmost position, which one is reported is C113."},
 {"property": "C112", "status": "proved", "theorems": ["Mregex.C112_expression", "Mregex.C112_unique", "Mregex.C112_basic", "Mregex.C112_date"], "note": "`C112_basic`, `C112_expression` with `C112_unique`, `C112_date`. The other examples: dates, log lines and records with match in C86, words in C87, URLs in C93. That the pattern in the comment of example/using_expressions.cpp is not equivalent is C88."},
 {"property": "C113", "status": "proved", "theorems": ["Mregex.C113_matchPrefix", "Mregex.C113_match", "Mregex.C113_attempts", "Mregex.C113_search", "Mregex.C113_tokenize", "Mregex.C113_findAll", "Mregex.C113_groups_generators", "Mregex.C113_groups"], "note": "`C113_matchPrefix`, `C113_match`, `C113_search`, `C113_tokenize`, `C113_findAll`, all with possessive quantifiers; `C113_attempts` relates the order to the language of C111; `C113_groups` and `C113_groups_generators` for the groups."},
 {"property": "C114", "status": "proved", "theorems": ["Mregex.C114_any", "Mregex.C114_pattern", "Mregex.C114_expression", "Mregex.C114_language", "Mregex.C114_methods", "Mregex.C114_exactly"], "note": "`C114_pattern` for the expressions, `C114_expression` and `C114_language` for the languages, `C114_methods` for all three methods, `C114_exactly` with the converse, `C114_any` for the pattern of one character."},
 {"property": "C115", "status": "proved", "theorems": ["Mregex.C115_not", "Mregex.C115_simple", "Mregex.C115_and", "Mregex.C115_or", "Mregex.C115_backwards", "Mregex.C115_rests", "Mregex.C115_pumping", "Mregex.C115_references"], "note": "`C115_not`, `C115_and`, `C115_or`, `C115_backwards`, `C115_simple`, `C115_rests`, `C115_pumping`; `C115_references` is the counterexample with references."}
]}
