{
 "claims": [
  {
   "property": "C01",
   "status": "proved",
   "theorems": [
    "Pire.Props.C01_default_accepts_exactly_empty",
    "Pire.Props.C01_makeFalse_accepts_nothing"
   ],
   "note": "all words; transition tables of both constructors"
  },
  {
   "property": "C02",
   "status": "proved",
   "theorems": [
    "Pire.Props.C02_append_char",
    "Pire.Props.C02_append_string",
    "Pire.Props.C02_append_dot",
    "Pire.Props.C02_literal_automaton",
    "Pire.Props.C02_append_packed_letter_lost"
   ],
   "note": "plus the exact failure on packed letters"
  },
  {
   "property": "C03",
   "status": "proved",
   "theorems": [
    "Pire.Props.C03_append_strings",
    "Pire.Props.C03_throws_iff_empty"
   ],
   "note": "any list of strings; an exception exactly for the empty list"
  },
  {
   "property": "C04",
   "status": "partial",
   "theorems": [
    "Pire.Props.C04_concat_partial",
    "Pire.Props.C04_concat_exact",
    "Pire.Props.C04_concat_with_empty_word_is_wrong"
   ],
   "note": "false of the code when the right operand's initial state is final; proved under that guard, and the exact language is proved in all cases"
  },
  {
   "property": "C05",
   "status": "proved",
   "theorems": [
    "Pire.Props.C05_union",
    "Pire.Props.C05_union_chain"
   ],
   "note": "all well-formed operands in all four shapes of the isAlternative bookkeeping, chains of unions included"
  },
  {
   "property": "C06",
   "status": "proved",
   "theorems": [
    "Pire.Props.C06_iterate"
   ],
   "note": "all well-formed automata"
  },
  {
   "property": "C07",
   "status": "proved",
   "theorems": [
    "Pire.Props.C07_complement",
    "Pire.Props.C07_throws_only_if_too_big",
    "Pire.Props.C07_small_never_throws",
    "Pire.Props.C07_throws_if_many_rests"
   ],
   "note": "all automata; the exception happens only if the determiner hits its limit, never below 17 states, and always if the language has more than 200001 rests (C07_throws_if_many_rests)"
  },
  {
   "property": "C08",
   "status": "proved",
   "theorems": [
    "Pire.Props.C08_intersection"
   ],
   "note": "all pairs of automata whose complements succeed"
  },
  {
   "property": "C09",
   "status": "proved",
   "theorems": [
    "Pire.Props.C09_power",
    "Pire.Props.C09_power_of_empty_word_is_wrong"
   ],
   "note": "same guard as C04; witness for the excluded case"
  },
  {
   "property": "C10",
   "status": "proved",
   "theorems": [
    "Pire.Props.C10_prepend_anything",
    "Pire.Props.C10_append_anything",
    "Pire.Props.C10_surround"
   ],
   "note": "all well-formed automata"
  },
  {
   "property": "C11",
   "status": "proved",
   "theorems": [
    "Pire.Props.C11_reverse",
    "Pire.Props.C11_reverse_twice"
   ],
   "note": "all well-formed automata; reversing twice is the identity on languages"
  },
  {
   "property": "C12",
   "status": "partial",
   "theorems": [
    "Pire.Props.C12_makeSuffix_partial",
    "Pire.Props.C12_makeSuffix_exact",
    "Pire.Props.C12_makeSuffix_contains_suffixes",
    "Pire.Props.C12_makeSuffix_loop_is_wrong",
    "Pire.Props.C12_makeSuffix_unreachable_is_wrong",
    "Pire.Props.C12_makePrefix"
   ],
   "note": "MakePrefix fully; MakeSuffix = all suffixes under reachability and no edge into the initial state (partial, the claim is false otherwise: two witnesses); C12_makeSuffix_exact gives its language in every case"
  },
  {
   "property": "C13",
   "status": "proved",
   "theorems": [
    "Pire.Props.C13_deadStates",
    "Pire.Props.C13_removeDeadEnds",
    "Pire.Props.C13_removeDeadEnds_transitions"
   ],
   "note": "dead = no final state reachable, for all automata; removal changes exactly the transitions into dead states"
  },
  {
   "property": "C14",
   "status": "proved",
   "theorems": [
    "Pire.Props.C14_removeEpsilons_language",
    "Pire.Props.C14_removeEpsilons_every_state",
    "Pire.Props.C14_removeEpsilons_no_epsilon"
   ],
   "note": "language kept from every state, no epsilon left"
  },
  {
   "property": "C15",
   "status": "proved",
   "theorems": [
    "Pire.Props.C15_every_letter_classified",
    "Pire.Props.C15_same_representative_iff",
    "Pire.Props.C15_index",
    "Pire.Props.C15_index_onto",
    "Pire.Props.C15_sparse_transitions",
    "Pire.Props.C15_sparse_language",
    "Pire.Props.C15_unsparse_transitions",
    "Pire.Props.C15_unsparse_language",
    "Pire.Props.C15_repack_language"
   ],
   "note": "partition classes, indices, Sparse/Unsparse/re-packing, all automata"
  },
  {
   "property": "C16",
   "status": "proved",
   "theorems": [
    "Pire.Props.C16_fails_if_many_rests",
    "Pire.Props.C16_determine_true",
    "Pire.Props.C16_determine_size",
    "Pire.Props.C16_determine_false",
    "Pire.Props.C16_determine_succeeds"
   ],
   "note": "language, determinism, completeness; false only beyond the limit; success below the bound; always false if the language has more rests than the limit (C16_fails_if_many_rests)"
  },
  {
   "property": "C17",
   "status": "proved",
   "theorems": [
    "Pire.Props.C17_generic_success",
    "Pire.Props.C17_generic_failure"
   ],
   "note": "for an arbitrary task, not only Fsm determinisation"
  },
  {
   "property": "C18",
   "status": "proved",
   "theorems": [
    "Pire.Props.C18_minimize",
    "Pire.Props.C18_minimize_deterministic"
   ],
   "note": "all deterministic complete automata"
  },
  {
   "property": "C19",
   "status": "proved",
   "theorems": [
    "Pire.Props.C19_no_equivalent_states",
    "Pire.Props.C19_fewest_states"
   ],
   "note": "no two equivalent states; fewest states among all equivalent complete deterministic automata"
  },
  {
   "property": "C20",
   "status": "proved",
   "theorems": [
    "Pire.Props.C20_canonize",
    "Pire.Props.C20_throws_only_if_too_big",
    "Pire.Props.C20_canonical",
    "Pire.Props.C20_at_most_exponential",
    "Pire.Props.C20_idempotent_language"
   ],
   "note": "minimal automata are unique up to renaming; exponential bound; exception only beyond the limit"
  },
  {
   "property": "C21",
   "status": "proved",
   "theorems": [
    "Pire.Props.C21_good_in_bounds",
    "Pire.Props.C21_operations_preserve_good",
    "Pire.Props.C21_appends_preserve_good"
   ],
   "note": "invariant kept by every operation, so every index stays in range in every history of operations"
  },
  {
   "property": "C22",
   "status": "partial",
   "theorems": [
    "Pire.Props.C22_expressions_partial",
    "Pire.Props.C22_in_bounds",
    "Pire.Props.C22_right_operand_empty_is_wrong"
   ],
   "note": "operands excluded by the syntactic guard are exactly those where C04 fails"
  },
  {
   "property": "C23",
   "status": "proved",
   "theorems": [
    "Pire.Props.C23_compiled_scanner_decides",
    "Pire.Props.C23_final_iff_accepted",
    "Pire.Props.C23_accepted_regexps",
    "Pire.Props.C23_expression_to_scanner",
    "Pire.Props.C23_throws_only_if_too_big",
    "Pire.Props.C23_reads_stay_in_block",
    "Pire.Props.C23_simple_decides",
    "Pire.Props.C23_simple_valid",
    "Pire.Props.C23_simple_expression",
    "Pire.Props.C23_simple_reads_stay_in_block",
    "Pire.Props.C23_simple_tag_is_final"
   ],
   "note": "compiled table read back byte by byte, Scanner, NonrelocScanner and SimpleScanner; no read outside the block"
  },
  {
   "property": "C24",
   "status": "proved",
   "theorems": [
    "Pire.Props.C24_slow_decides",
    "Pire.Props.C24_slow_valid",
    "Pire.Props.C24_slow_expression",
    "Pire.Props.C24_slow_chunks",
    "Pire.Props.C24_slow_tag_is_final"
   ],
   "note": "all automata with at most 2^32 states, arbitrary chunks"
  },
  {
   "property": "C25",
   "status": "proved",
   "theorems": [
    "Pire.Props.C25_dead_iff",
    "Pire.Props.C25_dead_sound"
   ],
   "note": "exact for compiled scanners (Dead iff no continuation is accepted)"
  },
  {
   "property": "C26",
   "status": "proved",
   "theorems": [
    "Pire.Props.C26_empty_scanner",
    "Pire.Props.C26_glue",
    "Pire.Props.C26_numbering",
    "Pire.Props.C26_small_product_succeeds",
    "Pire.Props.C26_compiled_reduced",
    "Pire.Props.C26_copy_reduced",
    "Pire.Props.C26_glued_reduced",
    "Pire.Props.C26_fails_exactly",
    "Pire.Props.C26_empty_reduced",
    "Pire.Props.C26_by_languages"
   ],
   "note": "arbitrary many operands through repeated gluing; failure only beyond the size limit; for compiled, copied and glued scanners C26_by_languages says by the languages alone when it fails (lateA_many: a language for which it does)"
  },
  {
   "property": "C27",
   "status": "proved",
   "theorems": [
    "Pire.Props.C27_table_is_a_map",
    "Pire.Props.C27_insert_result",
    "Pire.Props.C27_full_table_is_undefined"
   ],
   "note": "histories of insertions of any length; behaviour of a full table is undefined in the code and shown so"
  },
  {
   "property": "C28",
   "status": "proved",
   "theorems": [
    "Pire.Props.C28_debug_build",
    "Pire.Props.C28_run_is_stepwise",
    "Pire.Props.C28_position_independent",
    "Pire.Props.C28_simple_matches"
   ],
   "note": "every address, alignment and length C28_debug_build: the same for the loop of debug builds."
  },
  {
   "property": "C29",
   "status": "proved",
   "theorems": [
    "Pire.Props.C29_shortcuts_keep_result",
    "Pire.Props.C29_no_shortcuts",
    "Pire.Props.C29_valid_scanner",
    "Pire.Props.C29_compiled_valid",
    "Pire.Props.C29_matches_iff_accepted"
   ],
   "note": "every platform word size, both policies; discharged for compiled scanners"
  },
  {
   "property": "C30",
   "status": "proved",
   "theorems": [
    "Pire.Props.C30_incremental",
    "Pire.Props.C30_incremental_buffers",
    "Pire.Props.C30_incremental_shortcuts",
    "Pire.Props.C30_runner_marks",
    "Pire.Props.C30_runner_iff_accepted"
   ],
   "note": "arbitrary cuts and buffers"
  },
  {
   "property": "C31",
   "status": "partial",
   "theorems": [
    "Pire.Props.C31_debug_build",
    "Pire.Props.C31_debug_longest_prefix",
    "Pire.Props.C31_longest_prefix",
    "Pire.Props.C31_longest_prefix_no_shortcuts",
    "Pire.Props.C31_longest_prefix_exit_masks_partial",
    "Pire.Props.C31_exit_masks_some_prefix",
    "Pire.Props.C31_exit_masks_too_short",
    "Pire.Props.C31_exit_masks_gap",
    "Pire.Props.C31_compiled_longest_prefix_no_mask",
    "Pire.Props.C31_simple_longest_prefix",
    "Pire.Props.C31_slow_longest_prefix"
   ],
   "note": "exact without shortcuts and for SimpleScanner, SlowScanner; with exit masks exact unless a final state has shortcuts (partial), false otherwise (C31_exit_masks_too_short); for the false case C31_exit_masks_some_prefix and C31_exit_masks_gap say exactly what may be lost: an end within a run of bytes looping in one final state C31_debug_build, C31_debug_longest_prefix: debug builds."
  },
  {
   "property": "C32",
   "status": "proved",
   "theorems": [
    "Pire.Props.C32_debug_build",
    "Pire.Props.C32_shortest_prefix",
    "Pire.Props.C32_shortest_prefix_exit_masks",
    "Pire.Props.C32_compiled_shortest_prefix",
    "Pire.Props.C32_simple_shortest_prefix",
    "Pire.Props.C32_slow_shortest_prefix"
   ],
   "note": "exact for all scanners, shortcuts included C32_debug_build: debug builds."
  },
  {
   "property": "C33",
   "status": "partial",
   "theorems": [
    "Pire.Props.C33_longest_suffix",
    "Pire.Props.C33_shortest_suffix_partial",
    "Pire.Props.C33_reads_reverse",
    "Pire.Props.C33_shortest_suffix_begin_mark_is_wrong",
    "Pire.Props.C33_shortest_suffix_begin_mark"
   ],
   "note": "LongestSuffix in full; ShortestSuffix exact without the begin mark (partial: the claim with the mark is false, witness), with the mark C33_shortest_suffix_begin_mark gives its behaviour in every case"
  },
  {
   "property": "C34",
   "status": "proved",
   "theorems": [
    "Pire.Props.C34_pair",
    "Pire.Props.C34_pair_final"
   ],
   "note": "any two scanners"
  },
  {
   "property": "C35",
   "status": "proved",
   "theorems": [
    "Pire.Props.C35_round_trip",
    "Pire.Props.C35_empty_round_trip",
    "Pire.Props.C35_loaded_recognizes",
    "Pire.Props.C35_resave_identical",
    "Pire.Props.C35_rest_is_untouched",
    "Pire.Props.C35_truncated_rejected",
    "Pire.Props.C35_accepted_streams",
    "Pire.Props.C35_storable_compiled",
    "Pire.Props.C35_storable_empty",
    "Pire.Props.C35_storable_copied",
    "Pire.Props.C35_storable_glued",
    "Pire.Props.C35_loaded_round_trip",
    "Pire.Props.C35_loaded_rest_is_untouched",
    "Pire.Props.C35_loaded_truncated_rejected",
    "Pire.Props.C35_loaded_accepted_streams",
    "Pire.Props.C35_loaded_valid_compiled",
    "Pire.Props.C35_loaded_valid_counting",
    "Pire.Props.C35_capturing_round_trip",
    "Pire.Props.C35_counting_round_trip",
    "Pire.Props.C35_nolimit_round_trip",
    "Pire.Props.C35_nolimit_reads_advanced",
    "Pire.Props.C35_nolimit_compat_sticks",
    "Pire.Props.C35_loaded_empty_is_wrong",
    "Pire.Props.C35_simple_round_trip",
    "Pire.Props.C35_simple_empty_round_trip",
    "Pire.Props.C35_simple_rest_is_untouched",
    "Pire.Props.C35_simple_truncated_rejected",
    "Pire.Props.C35_simple_accepted_streams",
    "Pire.Props.C35_slow_round_trip",
    "Pire.Props.C35_slow_empty_round_trip",
    "Pire.Props.C35_slow_rest_is_untouched",
    "Pire.Props.C35_slow_truncated_rejected",
    "Pire.Props.C35_slow_accepted_streams"
   ],
   "note": "Scanner (all four typedefs), SimpleScanner, SlowScanner, and all scanners derived from LoadedScanner (CapturingScanner, the three counting scanners). Streams throw at EOF. The two exceptions in the statement are defects with witnesses: C35_loaded_empty_is_wrong (an empty scanner comes back with one regexp), C35_nolimit_compat_sticks (Load never clears the compatibility flag)."
  },
  {
   "property": "C36",
   "status": "partial",
   "theorems": [
    "Pire.Props.C36_mmap_saved",
    "Pire.Props.C36_mmap_equals_load",
    "Pire.Props.C36_mmap_empty",
    "Pire.Props.C36_misaligned_rejected",
    "Pire.Props.C36_stays_inside_partial",
    "Pire.Props.C36_short_rejected_partial",
    "Pire.Props.C36_short_input_accepted",
    "Pire.Props.C36_reads_past_the_end",
    "Pire.Props.C36_accepted_memory",
    "Pire.Props.C36_loaded_mmap_saved",
    "Pire.Props.C36_loaded_misaligned_rejected",
    "Pire.Props.C36_loaded_stays_inside",
    "Pire.Props.C36_loaded_forged_counts",
    "Pire.Props.C36_loaded_accepts_iff",
    "Pire.Props.C36_nolimit_mmap_saved",
    "Pire.Props.C36_counting_mmap_saved",
    "Pire.Props.C36_nolimit_actions_unchecked",
    "Pire.Props.C36_simple_mmap_saved",
    "Pire.Props.C36_simple_misaligned_rejected",
    "Pire.Props.C36_simple_stays_inside_partial",
    "Pire.Props.C36_simple_mmap_empty_keeps_self",
    "Pire.Props.C36_simple_reads_past_the_end",
    "Pire.Props.C36_simple_short_input_accepted",
    "Pire.Props.C36_slow_mmap_saved",
    "Pire.Props.C36_slow_misaligned_rejected",
    "Pire.Props.C36_slow_short_input_accepted"
   ],
   "note": "the full property is false: AlignPtr mixes words and bytes, so input lacking up to 7 bytes is accepted (C36_*short_input_accepted), input that ends before the flag is read past its end (C36_*reads_past_the_end), the number of transitions of a LoadedScanner is computed with 32 bits (C36_loaded_forged_counts), the table of actions of a NoGlueLimitCountingScanner is not checked at all (C36_nolimit_actions_unchecked). Proved: everything else for Scanner, SimpleScanner and LoadedScanner (C36_loaded_accepts_iff is exact); mapping of saved bytes for SlowScanner and the counting scanners."
  },
  {
   "property": "C37",
   "status": "proved",
   "theorems": [
    "Pire.Props.C37_convert",
    "Pire.Props.C37_copy_constructor",
    "Pire.Props.C37_displacement_exact",
    "Pire.Props.C37_limit_is_two_gigabytes",
    "Pire.Props.C37_address_exact",
    "Pire.Props.C37_copy_recognizes_the_same",
    "Pire.Props.C37_states_correspond",
    "Pire.Props.C37_compiled_states_correspond",
    "Pire.Props.C37_simple_copy",
    "Pire.Props.C37_slow_copy",
    "Pire.Props.C37_slow_compiled_complete",
    "Pire.Props.C37_slow_copy_of_default_is_broken"
   ],
   "note": "copies at any address within 2 GB (the limit is shown); default-constructed SlowScanner copies are broken (witness)"
  },
  {
   "property": "C38",
   "status": "proved",
   "theorems": [
    "Pire.Props.C38_utf8_encodes",
    "Pire.Props.C38_utf8_round_trip",
    "Pire.Props.C38_utf8_decodes",
    "Pire.Props.C38_utf8_text_round_trip",
    "Pire.Props.C38_utf8_prefix_free",
    "Pire.Props.C38_decode_in_bounds",
    "Pire.Props.C38_latin1_round_trip",
    "Pire.Props.C38_latin1_rejects",
    "Pire.Props.C38_empty_range",
    "Pire.Props.C38_utf8_large_code_points_are_wrong",
    "Pire.Props.C38_overlong_accepted"
   ],
   "note": "all code points and texts; defects for large code points and overlong forms stated"
  },
  {
   "property": "C39",
   "status": "proved",
   "theorems": [
    "Pire.Props.C39_utf8_dot",
    "Pire.Props.C39_dot_is_one_decoded_character",
    "Pire.Props.C39_dot_accepts_every_character",
    "Pire.Props.C39_latin1_dot"
   ],
   "note": "dot accepts exactly one encoded character, both encodings"
  },
  {
   "property": "C40",
   "status": "proved",
   "theorems": [
    "Pire.Props.C40_tokens",
    "Pire.Props.C40_unambiguous",
    "Pire.Props.C40_quoted_text",
    "Pire.Props.C40_plain_text",
    "Pire.Props.C40_text_language",
    "Pire.Props.C40_rejects_open_bracket",
    "Pire.Props.C40_rejects_count",
    "Pire.Props.C40_rejects_escape",
    "Pire.Props.C40_rejects_code",
    "Pire.Props.C40_rejects_big_code",
    "Pire.Props.C40_rejects_trailing_backslash",
    "Pire.Props.C40_escaped_y_is_dropped",
    "Pire.Props.C40_private_use_truncates",
    "Pire.Props.C40_escaped_letter_is_another",
    "Pire.Props.C40_code_is_truncated",
    "Pire.Props.C40_code_is_class"
   ],
   "note": "all literals and escapes; rejections (of patterns whose counts are ordered) and defects stated as theorems"
  },
  {
   "property": "C41",
   "status": "proved",
   "theorems": [
    "Pire.Props.C41_counts",
    "Pire.Props.C41_counts_any",
    "Pire.Props.C41_reversed_bounds",
    "Pire.Props.C41_empty_group_defect",
    "Pire.Props.C41_foreign_digits",
    "Pire.Props.C41_reversed_bounds_pattern"
   ],
   "note": "all bounds; defects with the empty group and foreign digits stated"
  },
  {
   "property": "C42",
   "status": "proved",
   "theorems": [
    "Pire.Props.C42_rejects_capital_in_negated",
    "Pire.Props.C42_rejects_mixed",
    "Pire.Props.C42_capital_in_bracket",
    "Pire.Props.C42_mixed_witness",
    "Pire.Props.C42_bracket",
    "Pire.Props.C42_negated_bracket",
    "Pire.Props.C42_default_bracket",
    "Pire.Props.C42_class",
    "Pire.Props.C42_not_class",
    "Pire.Props.C42_reversed_range",
    "Pire.Props.C42_negated_class_in_bracket",
    "Pire.Props.C42_trailing_dash",
    "Pire.Props.C42_range_across_private_use",
    "Pire.Props.C42_range_from_nul",
    "Pire.Props.C42_range_never_ends"
   ],
   "note": "all brackets of the grammar in Spec/Brackets; rejections (of patterns whose counts are ordered) and defects stated as theorems"
  },
  {
   "property": "C43",
   "status": "proved",
   "theorems": [
    "Pire.Props.C43_grammar_unambiguous",
    "Pire.Props.C43_pattern_language",
    "Pire.Props.C43_plain_pattern_language",
    "Pire.Props.C43_syntax_error",
    "Pire.Props.C43_never_accepted",
    "Pire.Props.C43_unbalanced",
    "Pire.Props.C43_empty_group_defect",
    "Pire.Props.C43_syntax_error_unnoticed"
   ],
   "note": "all parse trees of the grammar; the grammar is unambiguous; actions and lexing interleaved as bison runs them; everything else is a syntax error, if its counts are ordered (C43_syntax_error_unnoticed: `a{3,2})` loops before the error is seen)"
  },
  {
   "property": "C44",
   "status": "proved",
   "theorems": [
    "Pire.Props.C44_text",
    "Pire.Props.C44_ascii",
    "Pire.Props.C44_cyrillic",
    "Pire.Props.C44_latin1",
    "Pire.Props.C44_reflexive",
    "Pire.Props.C44_symmetric",
    "Pire.Props.C44_titlecase",
    "Pire.Props.C44_micro",
    "Pire.Props.C44_order",
    "Pire.Props.C44_lookalikes"
   ],
   "note": "all code points of the Unicode tables, kernel-checked table facts"
  },
  {
   "property": "C45",
   "status": "proved",
   "theorems": [
    "Pire.Props.C45_matches",
    "Pire.Props.C45_constructs",
    "Pire.Props.C45_rejects_encoding",
    "Pire.Props.C45_rejects_syntax",
    "Pire.Props.C45_circumflex_ends",
    "Pire.Props.C45_text",
    "Pire.Props.C45_anchored_text",
    "Pire.Props.C45_options"
   ],
   "note": "end to end from pattern bytes to Matches, all flags"
  },
  {
   "property": "C46",
   "status": "proved",
   "theorems": [
    "Pire.Props.C46_scripts_levenshtein",
    "Pire.Props.C46_sound",
    "Pire.Props.C46_zero",
    "Pire.Props.C46_complete",
    "Pire.Props.C46_contains",
    "Pire.Props.C46_levenshtein",
    "Pire.Props.C46_exact",
    "Pire.Props.C46_exact_open",
    "Pire.Props.C46_text",
    "Pire.Props.C46_marked_text",
    "Pire.Props.C46_missed_behind",
    "Pire.Props.C46_scanner",
    "Pire.Props.C46_simple",
    "Pire.Props.C46_slow",
    "Pire.Props.C46_determined_flag_stays",
    "Pire.Props.C46_missed_after_packing"
   ],
   "note": "Findings proved beside: a letter added behind a text is missed (C46_missed_behind), packed letters make replacements be missed (C46_missed_after_packing), a determined automaton keeps its flag although the result is not deterministic (C46_determined_flag_stays)."
  },
  {
   "property": "C47",
   "status": "proved",
   "theorems": [
    "Pire.Props.C47_basic_counts",
    "Pire.Props.C47_advanced_counts",
    "Pire.Props.C47_nolimit_counts",
    "Pire.Props.C47_glue_fails_iff",
    "Pire.Props.C47_small_product",
    "Pire.Props.C47_letters_product",
    "Pire.Props.C47_counter_wraps",
    "Pire.Props.C47_compat_glue_wrong"
   ],
   "note": "All three counting scanners, however assembled (default, from one machine, copied, glued, saved and loaded, mapped). C47_counter_wraps: counters wrap at 2^32. C47_compat_glue_wrong: gluing a NoGlueLimitCountingScanner in compatibility mode misreads its actions. How the machine is made out of the two regexps is C55, C56."
  },
  {
   "property": "C48",
   "status": "proved",
   "theorems": [
    "Pire.Props.C48_positions",
    "Pire.Props.C48_within",
    "Pire.Props.C48_fixed",
    "Pire.Props.C48_order",
    "Pire.Props.C48_begin_before_end",
    "Pire.Props.C48_actions_of_residual",
    "Pire.Props.C48_end_without_begin",
    "Pire.Props.C48_slow_threads",
    "Pire.Props.C48_slow_capture",
    "Pire.Props.C48_slow_within",
    "Pire.Props.C48_slow_order",
    "Pire.Props.C48_slow_sound",
    "Pire.Props.C48_slow_complete",
    "Pire.Props.C48_captured_text",
    "Pire.Props.C48_example",
    "Pire.Props.C48_slow_true_without_begin",
    "Pire.Props.C48_slow_dollar_everywhere",
    "Pire.Props.C48_slow_one_epsilon",
    "Pire.Props.C48_marks_keep_language"
   ],
   "note": "CapturingScanner: C48_positions, C48_within, C48_fixed, C48_order (with the defect case begin > end when an 'end' comes first), C48_begin_before_end; C48_actions_of_residual/C48_end_without_begin show why minimization makes some captures indistinguishable. SlowCapturingScanner: C48_slow_threads, C48_slow_capture, C48_slow_within, C48_slow_order, C48_slow_sound, C48_slow_complete, C48_captured_text (what is reported for a pattern with one group is in the language of the group). Findings: GetCapture true without begin, end of text tried everywhere, only one epsilon after the end mark. Which of several readings is reported (greedy / non-greedy priorities) is modelled but not specified; the Capture feature itself (lexing, marks of the n-th group) is C58; mapped slow capturing scanners are not modelled."
  },
  {
   "property": "C49",
   "status": "proved",
   "theorems": [
    "Pire.Props.C49_counts",
    "Pire.Props.C49_counts_exact",
    "Pire.Props.C49_accepted",
    "Pire.Props.C49_accepted_sorted",
    "Pire.Props.C49_final",
    "Pire.Props.C49_dead_freezes",
    "Pire.Props.C49_run",
    "Pire.Props.C49_glue",
    "Pire.Props.C49_constructor_extensible",
    "Pire.Props.C49_surround_extensible",
    "Pire.Props.C49_constructor_whole",
    "Pire.Props.C49_constructor_distance",
    "Pire.Props.C49_all_ends",
    "Pire.Props.C49_non_overlapping",
    "Pire.Props.C49_empty_match_counts_one",
    "Pire.Props.C49_simplified",
    "Pire.Props.C49_simplification_exact",
    "Pire.Props.C49_simplification_loses"
   ],
   "note": "HalfFinalScanner: Result(i) = number of prefixes of the text in the i-th language (C49_counts, C49_counts_exact, C49_run over memory), AcceptedRegexps, Final, Dead, Glue keeps both groups of counters (C49_glue). What the languages are: the constructor from an Fsm (C49_constructor_*), MakeNonGreedyCounter with all three option combinations (C49_all_ends, C49_non_overlapping = greatest number of non-overlapping occurrences, C49_simplified). Findings: an \u03b5-matching regexp always counts 1 without intersections (C49_empty_match_counts_one), simplification loses occurrences (C49_simplification_loses). MakeGreedyCounter is C57; State::Save/Load (which asserts and drops the counters) is not modelled."
  },
  {
   "property": "C50",
   "status": "proved",
   "theorems": [
    "Pire.Props.C50_bitset",
    "Pire.Props.C50_resize",
    "Pire.Props.C50_resize_defect"
   ],
   "note": "histories of insertions and Clear; Resize keeps exactly the elements below the new size, except the shown defect"
  },
  {
   "property": "C51",
   "status": "proved",
   "theorems": [
    "Pire.Props.C51_byte_search",
    "Pire.Props.C51_fill",
    "Pire.Props.C51_platforms"
   ],
   "note": "every word, every platform"
  },
  {
   "property": "C52",
   "status": "proved",
   "theorems": [
    "Pire.Props.C52_align_down",
    "Pire.Props.C52_align_up",
    "Pire.Props.C52_is_aligned"
   ],
   "note": "all addresses and sizes"
  },
  {
   "property": "C53",
   "status": "proved",
   "theorems": [
    "Pire.Props.C53_connect",
    "Pire.Props.C53_disconnect",
    "Pire.Props.C53_disconnect_all",
    "Pire.Props.C53_divert",
    "Pire.Props.C53_divert_outputs",
    "Pire.Props.C53_set_final",
    "Pire.Props.C53_resize"
   ],
   "note": "each edit changes exactly the transitions it names"
  },
  {
   "property": "C54",
   "status": "proved",
   "theorems": [
    "Pire.Props.C54_lexing_ends",
    "Pire.Props.C54_parsing_ends"
   ],
   "note": "fuel measure: both loops end on every input"
  },
  {
   "property": "C55",
   "status": "proved",
   "theorems": [
    "Pire.Props.C55_machine",
    "Pire.Props.C55_result",
    "Pire.Props.C55_nothing_to_count",
    "Pire.Props.C55_pieces",
    "Pire.Props.C55_not_too_many",
    "Pire.Props.C55_witness",
    "Pire.Props.C55_overcounts_witness"
   ],
   "note": "CountingScanner(re, sep), count.cpp:739-834: the automaton before and after squaring is described by two words (main and spare), C55_machine for every text. C55_result: the counter is the longest run of increments. C55_pieces, C55_not_too_many: in the orderly case (Steady) it is the longest series of consecutive items of the greedy cut. C55_overcounts_witness: for a|aaa the counter exceeds every bound on a text with two matches. Hypotheses (Call): automata as the public operations make them (Good), no tags, [] not matched by re, the limits of Determine are not hit (the constructor ignores its failure); C55_witness meets them."
  },
  {
   "property": "C56",
   "status": "proved",
   "theorems": [
    "Pire.Props.C56_made",
    "Pire.Props.C56_never_too_many",
    "Pire.Props.C56_nothing_to_count",
    "Pire.Props.C56_no_separators",
    "Pire.Props.C56_something",
    "Pire.Props.C56_exact",
    "Pire.Props.C56_small",
    "Pire.Props.C56_witness"
   ],
   "note": "AdvancedCountingScanner / NoGlueLimitCountingScanner constructors, count.cpp:34-737, 836-873 (automaton re sep* with tags, full determinization with groups, simple fallback, minimization, table). C56_made: legitimate calls succeed. C56_never_too_many for both forms and any text; C56_nothing_to_count; C56_something (full form). C56_exact: the longest series, when matches and separators have no characters in common; for overlapping alphabets only the upper bound and C56_something are claimed, since the construction does not guarantee more. C56_no_separators: a separator matching nothing keeps the counter at 0. C56_small: small calls are legitimate; C56_witness meets all hypotheses."
  },
  {
   "property": "C57",
   "status": "proved",
   "theorems": [
    "Pire.Props.C57_simplified",
    "Pire.Props.C57_full",
    "Pire.Props.C57_small_settles",
    "Pire.Props.C57_overcounts",
    "Pire.Props.C57_undercounts",
    "Pire.Props.C57_end_mark_ignored",
    "Pire.Props.C57_default_undercounts",
    "Pire.Props.C57_dead_lies"
   ],
   "note": "MakeGreedyCounter, half_final_fsm.cpp:102-317 (doubling of the automaton, counting states, determinization with both attempts, tags, minimization). C57_simplified and C57_full: the counts equal GreedyMatches (Spec/Greedy) under conditions on the language (WithinDepth, NoSwallowing, NoReturn); C57_small_settles discharges the hypothesis Settles for small automata. Each condition is needed: C57_overcounts, C57_undercounts, C57_default_undercounts, C57_end_mark_ignored, C57_dead_lies are witnesses for concrete regexps with the default MaxCountDepth, obtained by evaluating the counting states on a table that is proved equivalent to the canonical automaton. Examples (a+, abc|b) meet the hypotheses. When both attempts of Determine fail the code goes on with a default automaton (finding, no witness)."
  },
  {
   "property": "C58",
   "status": "proved",
   "theorems": [
    "Pire.Props.C58_tokens",
    "Pire.Props.C58_language",
    "Pire.Props.C58_numbered",
    "Pire.Props.C58_captured_text",
    "Pire.Props.C58_mandatory_group",
    "Pire.Props.C58_no_group",
    "Pire.Props.C58_finds",
    "Pire.Props.C58_found",
    "Pire.Props.C58_found_iff",
    "Pire.Props.C58_case",
    "Pire.Props.C58_caret_in_group",
    "Pire.Props.C58_dollar_in_group",
    "Pire.Props.C58_question_in_braces"
   ],
   "note": "The capture feature (lexing of lazy repetitions, counting of parentheses, marks around the n-th group, Kleene star with marks) and SlowCapturingScanner for it. C58_tokens, C58_language (same language for every n), C58_numbered, C58_captured_text (what is reported matches the n-th group: Alt.nth of Spec/CapturePattern), C58_mandatory_group, C58_no_group, C58_finds, C58_found, C58_found_iff (surrounded patterns). C58_case: the hypotheses are met by a concrete pattern with a lazy repetition. Defects proved: C58_caret_in_group, C58_dollar_in_group (^ and $ in the captured group are never matched), C58_question_in_braces. Which of several readings is reported (greedy / lazy priorities) is modelled, not specified. Patterns with & and ~ are outside of the quantifier."
  },
  {
   "property": "C59",
   "status": "proved",
   "theorems": [
    "Pire.Props.C59_leftmost",
    "Pire.Props.C59_case",
    "Pire.Props.C59_skips_witness"
   ],
   "note": "C59_leftmost: Spec/CapturePattern defines Alt.markless, Alt.nullable and Alt.skips (a greedy repetition may be passed before a letter is read); the reported thread began at the least place where the pattern occurs, and the group it reports is inside of an occurrence that begins there. Proved by an invariant on the order of the list of threads (Proofs/CaptureOrder), a property of the automata the parser builds (Proofs/CaptureFresh) and the shape of surrounded automata (Proofs/CaptureSurround). C59_case: hypotheses met. C59_skips_witness: the condition is needed, a*(b) on bb captures [1,2). Which of the occurrences at the leftmost place is reported is not claimed."
  },
  {
   "property": "C60",
   "status": "proved",
   "theorems": [
    "Pire.Props.C60_preferred",
    "Pire.Props.C60_items",
    "Pire.Props.C60_case",
    "Pire.Props.C60_alternatives_witness"
   ],
   "note": "C60_preferred: Spec/Prefer gives the items of a pattern (Alt.items), what it is for a list of numbers of repetitions to match the beginning of a text (Starts) and which of two lists is preferred (Better); the captured group lies between the items that the preferred list assigns to it, at the leftmost place. C60_items: the items match exactly what the pattern means. C60_case: hypotheses met, x(a*)a* and x(a*?)a* on cxaax. Scope: Latin-1, no greedy repetition passable before a letter (needed: C59_skips_witness), no negated classes, no counted repetitions {n,m}, no alternatives (needed: C60_alternatives_witness), no repeated groups."
  },
  {
   "property": "C61",
   "status": "proved",
   "theorems": [
    "Pire.Props.C61_compiled",
    "Pire.Props.C61_round_trip",
    "Pire.Props.C61_rest_is_untouched",
    "Pire.Props.C61_truncated_rejected",
    "Pire.Props.C61_mmap_saved",
    "Pire.Props.C61_misaligned_rejected",
    "Pire.Props.C61_copy",
    "Pire.Props.C61_copy_mapped",
    "Pire.Props.C61_plain_load_leaves_actions",
    "Pire.Props.C61_second_mmap_breaks",
    "Pire.Props.C61_load_after_empty_breaks",
    "Pire.Props.C61_default_cannot_run",
    "Pire.Props.C61_mapped_save_unloadable",
    "Pire.Props.C61_case"
   ],
   "note": "Model/CaptureIo has all fields of the scanner and both ways to store transitions; C61_compiled ties it to the table C48 and C58-C60 are about. C61_round_trip, C61_rest_is_untouched, C61_truncated_rejected, C61_mmap_saved, C61_misaligned_rejected, C61_copy, C61_copy_mapped. Freshly made means need_actions is set, and this is necessary: Mmap and Load of an empty scanner clear it, and what is mapped or loaded next has no actions and cannot be run (C61_second_mmap_breaks, C61_load_after_empty_breaks). C61_case: hypotheses met by the scanner of x(a*)a*."
  },
  {
   "property": "C62",
   "status": "proved",
   "theorems": [
    "Pire.Props.C62_scanner",
    "Pire.Props.C62_simple",
    "Pire.Props.C62_loaded",
    "Pire.Props.C62_no_leak",
    "Pire.Props.C62_assignment",
    "Pire.Props.C62_move",
    "Pire.Props.C62_load",
    "Pire.Props.C62_mmap",
    "Pire.Props.C62_scanner_built",
    "Pire.Props.C62_scanner_compiled",
    "Pire.Props.C62_simple_null",
    "Pire.Props.C62_loaded_built",
    "Pire.Props.C62_loaded_null"
   ],
   "note": "C62_scanner, C62_simple, C62_loaded: every legal program (Spec/Lifetime: Legal, LegalRun) is defined in the model that detects reads of freed memory and double frees, and ends with every variable meaning its value; nothing leaks. C62_assignment, C62_move, C62_load, C62_mmap: the derived operations are legal after any legal program and change exactly the values they should. C62_scanner_compiled, C62_scanner_built, C62_loaded_built, C62_simple_null, C62_loaded_null: what constructors give meets the hypotheses; examples run a program for all three classes. SlowScanner is not included: copying a default-constructed one is broken (C37_slow_copy_of_default_is_broken)."
  },
  {
   "property": "C63",
   "status": "proved",
   "theorems": [
    "Pire.Props.C63_of_scanner",
    "Pire.Props.C63_of_empty_scanner",
    "Pire.Props.C63_of_slow",
    "Pire.Props.C63_copy",
    "Pire.Props.C63_move",
    "Pire.Props.C63_pattern",
    "Pire.Props.C63_moved_from",
    "Pire.Props.C63_of_default_slow_breaks",
    "Pire.Props.C63_copy_of_empty_breaks",
    "Pire.Props.C63_copy_of_moved_breaks"
   ],
   "note": "C63_of_scanner, C63_of_empty_scanner, C63_of_slow: the constructors. C63_copy, C63_move, C63_pattern: chains of copies and moves; C63_moved_from: what is left. The exceptions named in the statement are theorems: C63_of_default_slow_breaks, C63_copy_of_empty_breaks, C63_copy_of_moved_breaks. Examples: a pattern with options, a compiled scanner copied three times."
  },
  {
   "property": "C64",
   "status": "proved",
   "theorems": [
    "Pire.Props.C64_values",
    "Pire.Props.C64_language",
    "Pire.Props.C64_capturing",
    "Pire.Props.C64_no_leak",
    "Pire.Props.C64_assignment",
    "Pire.Props.C64_load",
    "Pire.Props.C64_load_empty",
    "Pire.Props.C64_mmap",
    "Pire.Props.C64_capturing_built",
    "Pire.Props.C64_slow_built",
    "Pire.Props.C64_start",
    "Pire.Props.C64_program",
    "Pire.Props.C64_mapped_program"
   ],
   "note": "C64_values (with C64_language, C64_capturing for what variables recognise and capture, C64_no_leak). C64_assignment, C64_load, C64_load_empty, C64_mmap: the operations that are made of others. C64_capturing_built, C64_slow_built, C64_start, C64_program, C64_mapped_program: the hypotheses are met. The exception is part of the specification (Held.broken)."
  },
  {
   "property": "C65",
   "status": "proved",
   "theorems": [
    "Pire.Props.C65_values",
    "Pire.Props.C65_alike_counts",
    "Pire.Props.C65_counts",
    "Pire.Props.C65_no_leak",
    "Pire.Props.C65_assignment",
    "Pire.Props.C65_mmap",
    "Pire.Props.C65_move",
    "Pire.Props.C65_move_assignment",
    "Pire.Props.C65_load",
    "Pire.Props.C65_failed_load_dangles",
    "Pire.Props.C65_failed_load_breaks_copy",
    "Pire.Props.C65_built_actions",
    "Pire.Props.C65_program"
   ],
   "note": "C65_values; C65_alike_counts and C65_counts: what variables count; C65_no_leak. C65_assignment, C65_move, C65_move_assignment, C65_load, C65_mmap: the operations that are made of others. C65_program, C65_built_actions: the hypotheses are met. Two defects of Load when it throws: C65_failed_load_dangles, C65_failed_load_breaks_copy (such a Load is not an operation of the programs)."
  },
  {
   "property": "C66",
   "status": "partial",
   "theorems": [
    "Pire.Props.C66_programs_partial",
    "Pire.Props.C66_never_outside",
    "Pire.Props.C66_in_bounds",
    "Pire.Props.C66_frame",
    "Pire.Props.C66_completes",
    "Pire.Props.C66_self_append_is_undefined",
    "Pire.Props.C66_self_union_is_undefined",
    "Pire.Props.C66_self_by_value",
    "Pire.Props.C66_swap_misleads_observers",
    "Pire.Props.C66_append_misleads_observers"
   ],
   "note": "Partial because the code is wrong in general: C66_self_append_is_undefined and C66_self_union_is_undefined (for every automaton), and the C04 defect of + is excluded by Expr.Ok. C66_programs_partial is the statement otherwise; C66_never_outside, C66_in_bounds, C66_frame, C66_completes. C66_self_by_value: x + x, x | x, x &= x, x *= 2 work. Defects of the observer Connected after Swap and += (m_sparsed is forgotten): C66_swap_misleads_observers, C66_append_misleads_observers."
  },
  {
   "property": "C67",
   "status": "proved",
   "theorems": [
    "Pire.Props.C67_roundtrip",
    "Pire.Props.C67_counts_since_loaded",
    "Pire.Props.C67_storable",
    "Pire.Props.C67_counts_are_lost",
    "Pire.Props.C67_fresh_state",
    "Pire.Props.C67_truncated"
   ],
   "note": "C67_roundtrip, C67_counts_since_loaded, C67_fresh_state, C67_truncated, C67_storable (every state of a scan fits the format). C67_counts_are_lost is a defect: Save writes only the size of the vector of counters, Load sets all counters to zero."
  },
  {
   "property": "C68",
   "status": "proved",
   "theorems": [
    "Pire.Props.C68_reuse",
    "Pire.Props.C68_syntax_error_forgotten",
    "Pire.Props.C68_lexical_error_sticks",
    "Pire.Props.C68_message_rejects_all",
    "Pire.Props.C68_witness",
    "Pire.Props.C68_parsed_twice",
    "Pire.Props.C68_capture_shifts",
    "Pire.Props.C68_capture_witness"
   ],
   "note": "C68_reuse is the property; C68_message_rejects_all and C68_capture_shifts are the defects, with witnesses. What a parse that failed leaves of the input is not modelled, so Parse after a failed Parse without Assign is not covered."
  },
  {
   "property": "C69",
   "status": "proved",
   "theorems": [
    "Pire.Props.C69_arguments",
    "Pire.Props.C69_last_backslash",
    "Pire.Props.C69_hex_escape",
    "Pire.Props.C69_octal_escape",
    "Pire.Props.C69_octal_escape_last",
    "Pire.Props.C69_flags",
    "Pire.Props.C69_unknown_flag",
    "Pire.Props.C69_automaton",
    "Pire.Props.C69_scanner",
    "Pire.Props.C69_count_tells",
    "Pire.Props.C69_glue_failure_unnoticed",
    "Pire.Props.C69_text",
    "Pire.Props.C69_line_break",
    "Pire.Props.C69_inline",
    "Pire.Props.C69_usage",
    "Pire.Props.C69_case",
    "Pire.Props.C69_case_automaton",
    "Pire.Props.C69_case_dropped"
   ],
   "note": "C69_inline is the property from the text of the arguments to the mapped scanner; C69_last_backslash, C69_hex_escape, C69_octal_escape(_last), C69_line_break and C69_glue_failure_unnoticed are the defects outside its assumptions. Finding PIRE_REGEXP( in the source text, comments and #line are not modelled."
  },
  {
   "property": "C70",
   "status": "proved",
   "theorems": [
    "Pire.Props.C70_file",
    "Pire.Props.C70_memory",
    "Pire.Props.C70_aligned_input",
    "Pire.Props.C70_scanner",
    "Pire.Props.C70_simple",
    "Pire.Props.C70_slow",
    "Pire.Props.C70_slow_capturing",
    "Pire.Props.C70_loaded",
    "Pire.Props.C70_no_limit",
    "Pire.Props.C70_half_final_state",
    "Pire.Props.C70_check_the_stream",
    "Pire.Props.C70_truncated_unnoticed_simple",
    "Pire.Props.C70_truncated_unnoticed",
    "Pire.Props.C70_align_aligns",
    "Pire.Props.C70_aligned_round_trip",
    "Pire.Props.C70_memory_four_gigabytes",
    "Pire.Props.C70_memory_two_gigabytes",
    "Pire.Props.C70_get_repeats"
   ],
   "note": "LoadsLike is the property for a single Load, shown for the seven kinds; it carries C35, C49 and the other round trips over to streams. C70_truncated_unnoticed(_simple), C70_memory_four_gigabytes, C70_memory_two_gigabytes and C70_get_repeats are the defects. std::istream::read itself is modelled after the C++ standard."
  },
  {
   "property": "C71",
   "status": "proved",
   "theorems": [
    "Pire.Props.C71_lines",
    "Pire.Props.C71_lines_exist",
    "Pire.Props.C71_words",
    "Pire.Props.C71_words_exist",
    "Pire.Props.C71_pigrep_line",
    "Pire.Props.C71_pigrep_arguments",
    "Pire.Props.C71_pigrep",
    "Pire.Props.C71_blacklist_automaton",
    "Pire.Props.C71_blacklist",
    "Pire.Props.C71_pigrep_case",
    "Pire.Props.C71_listed_case"
   ],
   "note": "C71_pigrep and C71_blacklist are end to end: from the text of the pattern or dictionary to the text that is printed. They rest on the theorems about the lexer, the parser, the automata, the scanner, saving and mapping. Lines, words, Scheme, Subdomains, Path and Listed are in Spec/Samples."
  },
  {
   "property": "C72",
   "status": "proved",
   "theorems": [
    "Pire.Props.C72_safe",
    "Pire.Props.C72_nothing_leaks",
    "Pire.Props.C72_owned",
    "Pire.Props.C72_accepted",
    "Pire.Props.C72_result",
    "Pire.Props.C72_parses",
    "Pire.Props.C72_throws",
    "Pire.Props.C72_exception_leaks",
    "Pire.Props.C72_exception_reason",
    "Pire.Props.C72_case_leaks",
    "Pire.Props.C72_case_parses"
   ],
   "note": "the tables of bison are not modelled: any sequence of steps is allowed in which a production is reduced only if its right hand side is on top of the stack. C72_parses and C72_throws: such steps exist for every pattern. The leak is C72_exception_leaks, with `~.*a.{17}` as a case."
  },
  {
   "property": "C73",
   "status": "proved",
   "theorems": [
    "Pire.Props.C73_validator",
    "Pire.Props.C73_case"
   ],
   "note": "from the text of the macro call in the source to what is printed; that the C++ compiler puts the bytes of the generated string literal into memory, 8-aligned, is a hypothesis"
  },
  {
   "property": "C74",
   "status": "proved",
   "theorems": [
    "Pire.Props.C74_any_schedule",
    "Pire.Props.C74_after_the_first_call",
    "Pire.Props.C74_first_calls_race",
    "Pire.Props.C74_each_may_make_one",
    "Pire.Props.C74_reader_races",
    "Pire.Props.C74_case"
   ],
   "note": "sequentially consistent interleavings; a program without data races in them has no others in C++. The negative part is C74_first_calls_race and C74_reader_races"
  },
  {
   "property": "C75",
   "status": "proved",
   "theorems": [
    "Pire.Props.C75_values",
    "Pire.Props.C75_no_leak",
    "Pire.Props.C75_case"
   ],
   "note": "all programs; copying the value inside a Holder can fail only for lack of memory; references got from As are used at once"
  },
  {
   "property": "C76",
   "status": "proved",
   "theorems": [
    "Pire.Props.C76_filemap",
    "Pire.Props.C76_empty_file",
    "Pire.Props.C76_descriptor_zero_leaks",
    "Pire.Props.C76_copy_closes_twice",
    "Pire.Props.C76_case"
   ],
   "note": "the class for POSIX; that mmap fails for length 0 and never returns address 0 here is a hypothesis on the system (Answers.Posix). The exceptions are C76_empty_file, C76_descriptor_zero_leaks and C76_copy_closes_twice"
  }
 ]
}