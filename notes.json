{
 "C02": {
  "note": "plus the exact failure on packed letters"
 },
 "C04": {
  "note": "false of the code when the right operand's initial state is final; proved under that guard, and the exact language is proved in all cases"
 },
 "C09": {
  "note": "same guard as C04; witness for the excluded case"
 },
 "C12": {
  "note": "MakePrefix fully; MakeSuffix = all suffixes under reachability and no edge into the initial state (partial, the claim is false otherwise: two witnesses); C12_makeSuffix_exact gives its language in every case"
 },
 "C22": {
  "note": "operands excluded by the syntactic guard are exactly those where C04 fails"
 },
 "C35": {
  "note": "Scanner (all four typedefs), SimpleScanner, SlowScanner, and all scanners derived from LoadedScanner (CapturingScanner, the three counting scanners). Streams throw at EOF. The two exceptions in the statement are defects with witnesses: C35_loaded_empty_is_wrong (an empty scanner comes back with one regexp), C35_nolimit_compat_sticks (Load never clears the compatibility flag)."
 },
 "C36": {
  "status": "partial",
  "note": "the full property is false: AlignPtr mixes words and bytes, so input lacking up to 7 bytes is accepted (C36_*short_input_accepted), input that ends before the flag is read past its end (C36_*reads_past_the_end), the number of transitions of a LoadedScanner is computed with 32 bits (C36_loaded_forged_counts), the table of actions of a NoGlueLimitCountingScanner is not checked at all (C36_nolimit_actions_unchecked). Proved: everything else for Scanner, SimpleScanner and LoadedScanner (C36_loaded_accepts_iff is exact); mapping of saved bytes for SlowScanner and the counting scanners."
 },
 "C46": {
  "note": "Findings proved beside: a letter added behind a text is missed (C46_missed_behind), packed letters make replacements be missed (C46_missed_after_packing), a determined automaton keeps its flag although the result is not deterministic (C46_determined_flag_stays)."
 },
 "C47": {
  "note": "All three counting scanners, however assembled (default, from one machine, copied, glued, saved and loaded, mapped). C47_counter_wraps: counters wrap at 2^32. C47_compat_glue_wrong: gluing a NoGlueLimitCountingScanner in compatibility mode misreads its actions. How the machine is made out of the two regexps is C55, C56."
 },
 "C49": {
  "note": "HalfFinalScanner: Result(i) = number of prefixes of the text in the i-th language (C49_counts, C49_counts_exact, C49_run over memory), AcceptedRegexps, Final, Dead, Glue keeps both groups of counters (C49_glue). What the languages are: the constructor from an Fsm (C49_constructor_*), MakeNonGreedyCounter with all three option combinations (C49_all_ends, C49_non_overlapping = greatest number of non-overlapping occurrences, C49_simplified). Findings: an ε-matching regexp always counts 1 without intersections (C49_empty_match_counts_one), simplification loses occurrences (C49_simplification_loses). MakeGreedyCounter is C57; State::Save/Load (which asserts and drops the counters) is not modelled.",
  "status": "proved"
 },
 "C48": {
  "status": "proved",
  "note": "CapturingScanner: C48_positions, C48_within, C48_fixed, C48_order (with the defect case begin > end when an 'end' comes first), C48_begin_before_end; C48_actions_of_residual/C48_end_without_begin show why minimization makes some captures indistinguishable. SlowCapturingScanner: C48_slow_threads, C48_slow_capture, C48_slow_within, C48_slow_order, C48_slow_sound, C48_slow_complete, C48_captured_text (what is reported for a pattern with one group is in the language of the group). Findings: GetCapture true without begin, end of text tried everywhere, only one epsilon after the end mark. Which of several readings is reported (greedy / non-greedy priorities) is modelled but not specified; the Capture feature itself (lexing, marks of the n-th group) is C58; mapped slow capturing scanners are not modelled."
 },
 "C55": {
  "status": "proved",
  "note": "CountingScanner(re, sep), count.cpp:739-834: the automaton before and after squaring is described by two words (main and spare), C55_machine for every text. C55_result: the counter is the longest run of increments. C55_pieces, C55_not_too_many: in the orderly case (Steady) it is the longest series of consecutive items of the greedy cut. C55_overcounts_witness: for a|aaa the counter exceeds every bound on a text with two matches. Hypotheses (Call): automata as the public operations make them (Good), no tags, [] not matched by re, the limits of Determine are not hit (the constructor ignores its failure); C55_witness meets them."
 },
 "C56": {
  "status": "proved",
  "note": "AdvancedCountingScanner / NoGlueLimitCountingScanner constructors, count.cpp:34-737, 836-873 (automaton re sep* with tags, full determinization with groups, simple fallback, minimization, table). C56_made: legitimate calls succeed. C56_never_too_many for both forms and any text; C56_nothing_to_count; C56_something (full form). C56_exact: the longest series, when matches and separators have no characters in common; for overlapping alphabets only the upper bound and C56_something are claimed, since the construction does not guarantee more. C56_no_separators: a separator matching nothing keeps the counter at 0. C56_small: small calls are legitimate; C56_witness meets all hypotheses."
 },
 "C57": {
  "status": "proved",
  "note": "MakeGreedyCounter, half_final_fsm.cpp:102-317 (doubling of the automaton, counting states, determinization with both attempts, tags, minimization). C57_simplified and C57_full: the counts equal GreedyMatches (Spec/Greedy) under conditions on the language (WithinDepth, NoSwallowing, NoReturn); C57_small_settles discharges the hypothesis Settles for small automata. Each condition is needed: C57_overcounts, C57_undercounts, C57_default_undercounts, C57_end_mark_ignored, C57_dead_lies are witnesses for concrete regexps with the default MaxCountDepth, obtained by evaluating the counting states on a table that is proved equivalent to the canonical automaton. Examples (a+, abc|b) meet the hypotheses. When both attempts of Determine fail the code goes on with a default automaton (finding, no witness)."
 },
 "C01": {
  "note": "all words; transition tables of both constructors"
 },
 "C03": {
  "note": "any list of strings; an exception exactly for the empty list"
 },
 "C05": {
  "note": "all well-formed operands in all four shapes of the isAlternative bookkeeping, chains of unions included"
 },
 "C06": {
  "note": "all well-formed automata"
 },
 "C07": {
  "note": "all automata; the exception happens only if the determiner hits its limit, never below 17 states, and always if the language has more than 200001 rests (C07_throws_if_many_rests)"
 },
 "C08": {
  "note": "all pairs of automata whose complements succeed"
 },
 "C10": {
  "note": "all well-formed automata"
 },
 "C11": {
  "note": "all well-formed automata; reversing twice is the identity on languages"
 },
 "C13": {
  "note": "dead = no final state reachable, for all automata; removal changes exactly the transitions into dead states"
 },
 "C14": {
  "note": "language kept from every state, no epsilon left"
 },
 "C15": {
  "note": "partition classes, indices, Sparse/Unsparse/re-packing, all automata"
 },
 "C16": {
  "note": "language, determinism, completeness; false only beyond the limit; success below the bound; always false if the language has more rests than the limit (C16_fails_if_many_rests)"
 },
 "C17": {
  "note": "for an arbitrary task, not only Fsm determinisation"
 },
 "C18": {
  "note": "all deterministic complete automata"
 },
 "C19": {
  "note": "no two equivalent states; fewest states among all equivalent complete deterministic automata"
 },
 "C20": {
  "note": "minimal automata are unique up to renaming; exponential bound; exception only beyond the limit"
 },
 "C21": {
  "note": "invariant kept by every operation, so every index stays in range in every history of operations"
 },
 "C23": {
  "note": "compiled table read back byte by byte, Scanner, NonrelocScanner and SimpleScanner; no read outside the block"
 },
 "C24": {
  "note": "all automata with at most 2^32 states, arbitrary chunks"
 },
 "C25": {
  "note": "exact for compiled scanners (Dead iff no continuation is accepted)"
 },
 "C26": {
  "note": "arbitrary many operands through repeated gluing; failure only beyond the size limit; for compiled, copied and glued scanners C26_by_languages says by the languages alone when it fails (lateA_many: a language for which it does)"
 },
 "C27": {
  "note": "histories of insertions of any length; behaviour of a full table is undefined in the code and shown so"
 },
 "C28": {
  "note": "every address, alignment and length C28_debug_build: the same for the loop of debug builds."
 },
 "C29": {
  "note": "every platform word size, both policies; discharged for compiled scanners"
 },
 "C30": {
  "note": "arbitrary cuts and buffers"
 },
 "C31": {
  "note": "exact without shortcuts and for SimpleScanner, SlowScanner; with exit masks exact unless a final state has shortcuts (partial), false otherwise (C31_exit_masks_too_short); for the false case C31_exit_masks_some_prefix and C31_exit_masks_gap say exactly what may be lost: an end within a run of bytes looping in one final state C31_debug_build, C31_debug_longest_prefix: debug builds."
 },
 "C32": {
  "note": "exact for all scanners, shortcuts included C32_debug_build: debug builds."
 },
 "C33": {
  "note": "LongestSuffix in full; ShortestSuffix exact without the begin mark (partial: the claim with the mark is false, witness), with the mark C33_shortest_suffix_begin_mark gives its behaviour in every case"
 },
 "C34": {
  "note": "any two scanners"
 },
 "C37": {
  "note": "copies at any address within 2 GB (the limit is shown); default-constructed SlowScanner copies are broken (witness)"
 },
 "C38": {
  "note": "all code points and texts; defects for large code points and overlong forms stated"
 },
 "C39": {
  "note": "dot accepts exactly one encoded character, both encodings"
 },
 "C40": {
  "note": "all literals and escapes; rejections (of patterns whose counts are ordered) and defects stated as theorems"
 },
 "C41": {
  "note": "all bounds; defects with the empty group and foreign digits stated"
 },
 "C42": {
  "note": "all brackets of the grammar in Spec/Brackets; rejections (of patterns whose counts are ordered) and defects stated as theorems"
 },
 "C43": {
  "note": "all parse trees of the grammar; the grammar is unambiguous; actions and lexing interleaved as bison runs them; everything else is a syntax error, if its counts are ordered (C43_syntax_error_unnoticed: `a{3,2})` loops before the error is seen)"
 },
 "C44": {
  "note": "all code points of the Unicode tables, kernel-checked table facts"
 },
 "C45": {
  "note": "end to end from pattern bytes to Matches, all flags"
 },
 "C50": {
  "note": "histories of insertions and Clear; Resize keeps exactly the elements below the new size, except the shown defect"
 },
 "C51": {
  "note": "every word, every platform"
 },
 "C52": {
  "note": "all addresses and sizes"
 },
 "C53": {
  "note": "each edit changes exactly the transitions it names"
 },
 "C54": {
  "note": "fuel measure: both loops end on every input"
 },
 "C58": {
  "status": "proved",
  "note": "The capture feature (lexing of lazy repetitions, counting of parentheses, marks around the n-th group, Kleene star with marks) and SlowCapturingScanner for it. C58_tokens, C58_language (same language for every n), C58_numbered, C58_captured_text (what is reported matches the n-th group: Alt.nth of Spec/CapturePattern), C58_mandatory_group, C58_no_group, C58_finds, C58_found, C58_found_iff (surrounded patterns). C58_case: the hypotheses are met by a concrete pattern with a lazy repetition. Defects proved: C58_caret_in_group, C58_dollar_in_group (^ and $ in the captured group are never matched), C58_question_in_braces. Which of several readings is reported (greedy / lazy priorities) is modelled, not specified. Patterns with & and ~ are outside of the quantifier."
 },
 "C59": {
  "status": "proved",
  "note": "C59_leftmost: Spec/CapturePattern defines Alt.markless, Alt.nullable and Alt.skips (a greedy repetition may be passed before a letter is read); the reported thread began at the least place where the pattern occurs, and the group it reports is inside of an occurrence that begins there. Proved by an invariant on the order of the list of threads (Proofs/CaptureOrder), a property of the automata the parser builds (Proofs/CaptureFresh) and the shape of surrounded automata (Proofs/CaptureSurround). C59_case: hypotheses met. C59_skips_witness: the condition is needed, a*(b) on bb captures [1,2). Which of the occurrences at the leftmost place is reported is not claimed."
 },
 "C60": {
  "status": "proved",
  "note": "C60_preferred: Spec/Prefer gives the items of a pattern (Alt.items), what it is for a list of numbers of repetitions to match the beginning of a text (Starts) and which of two lists is preferred (Better); the captured group lies between the items that the preferred list assigns to it, at the leftmost place. C60_items: the items match exactly what the pattern means. C60_case: hypotheses met, x(a*)a* and x(a*?)a* on cxaax. Scope: Latin-1, no greedy repetition passable before a letter (needed: C59_skips_witness), no negated classes, no counted repetitions {n,m}, no alternatives (needed: C60_alternatives_witness), no repeated groups."
 },
 "C61": {
  "status": "proved",
  "note": "Model/CaptureIo has all fields of the scanner and both ways to store transitions; C61_compiled ties it to the table C48 and C58-C60 are about. C61_round_trip, C61_rest_is_untouched, C61_truncated_rejected, C61_mmap_saved, C61_misaligned_rejected, C61_copy, C61_copy_mapped. Freshly made means need_actions is set, and this is necessary: Mmap and Load of an empty scanner clear it, and what is mapped or loaded next has no actions and cannot be run (C61_second_mmap_breaks, C61_load_after_empty_breaks). C61_case: hypotheses met by the scanner of x(a*)a*."
 },
 "C62": {
  "status": "proved",
  "note": "C62_scanner, C62_simple, C62_loaded: every legal program (Spec/Lifetime: Legal, LegalRun) is defined in the model that detects reads of freed memory and double frees, and ends with every variable meaning its value; nothing leaks. C62_assignment, C62_move, C62_load, C62_mmap: the derived operations are legal after any legal program and change exactly the values they should. C62_scanner_compiled, C62_scanner_built, C62_loaded_built, C62_simple_null, C62_loaded_null: what constructors give meets the hypotheses; examples run a program for all three classes. SlowScanner is not included: copying a default-constructed one is broken (C37_slow_copy_of_default_is_broken)."
 },
 "C63": {
  "status": "proved",
  "note": "C63_of_scanner, C63_of_empty_scanner, C63_of_slow: the constructors. C63_copy, C63_move, C63_pattern: chains of copies and moves; C63_moved_from: what is left. The exceptions named in the statement are theorems: C63_of_default_slow_breaks, C63_copy_of_empty_breaks, C63_copy_of_moved_breaks. Examples: a pattern with options, a compiled scanner copied three times."
 },
 "C64": {
  "status": "proved",
  "note": "C64_values (with C64_language, C64_capturing for what variables recognise and capture, C64_no_leak). C64_assignment, C64_load, C64_load_empty, C64_mmap: the operations that are made of others. C64_capturing_built, C64_slow_built, C64_start, C64_program, C64_mapped_program: the hypotheses are met. The exception is part of the specification (Held.broken)."
 },
 "C65": {
  "status": "proved",
  "note": "C65_values; C65_alike_counts and C65_counts: what variables count; C65_no_leak. C65_assignment, C65_move, C65_move_assignment, C65_load, C65_mmap: the operations that are made of others. C65_program, C65_built_actions: the hypotheses are met. Two defects of Load when it throws: C65_failed_load_dangles, C65_failed_load_breaks_copy (such a Load is not an operation of the programs)."
 },
 "C66": {
  "status": "partial",
  "note": "Partial because the code is wrong in general: C66_self_append_is_undefined and C66_self_union_is_undefined (for every automaton), and the C04 defect of + is excluded by Expr.Ok. C66_programs_partial is the statement otherwise; C66_never_outside, C66_in_bounds, C66_frame, C66_completes. C66_self_by_value: x + x, x | x, x &= x, x *= 2 work. Defects of the observer Connected after Swap and += (m_sparsed is forgotten): C66_swap_misleads_observers, C66_append_misleads_observers."
 },
 "C67": {
  "status": "proved",
  "note": "C67_roundtrip, C67_counts_since_loaded, C67_fresh_state, C67_truncated, C67_storable (every state of a scan fits the format). C67_counts_are_lost is a defect: Save writes only the size of the vector of counters, Load sets all counters to zero."
 },
 "C68": {
  "status": "proved",
  "note": "C68_reuse is the property; C68_message_rejects_all and C68_capture_shifts are the defects, with witnesses. What a parse that failed leaves of the input is not modelled, so Parse after a failed Parse without Assign is not covered."
 },
 "C69": {
  "status": "proved",
  "note": "C69_inline is the property from the text of the arguments to the mapped scanner; C69_last_backslash, C69_hex_escape, C69_octal_escape(_last), C69_line_break and C69_glue_failure_unnoticed are the defects outside its assumptions. Finding PIRE_REGEXP( in the source text, comments and #line are not modelled."
 },
 "C70": {
  "status": "proved",
  "note": "LoadsLike is the property for a single Load, shown for the seven kinds; it carries C35, C49 and the other round trips over to streams. C70_truncated_unnoticed(_simple), C70_memory_four_gigabytes, C70_memory_two_gigabytes and C70_get_repeats are the defects. std::istream::read itself is modelled after the C++ standard."
 },
 "C71": {
  "status": "proved",
  "note": "C71_pigrep and C71_blacklist are end to end: from the text of the pattern or dictionary to the text that is printed. They rest on the theorems about the lexer, the parser, the automata, the scanner, saving and mapping. Lines, words, Scheme, Subdomains, Path and Listed are in Spec/Samples."
 },
 "C72": {
  "status": "proved",
  "note": "the tables of bison are not modelled: any sequence of steps is allowed in which a production is reduced only if its right hand side is on top of the stack. C72_parses and C72_throws: such steps exist for every pattern. The leak is C72_exception_leaks, with `~.*a.{17}` as a case."
 },
 "C73": {
  "status": "proved",
  "note": "from the text of the macro call in the source to what is printed; that the C++ compiler puts the bytes of the generated string literal into memory, 8-aligned, is a hypothesis"
 },
 "C74": {
  "status": "proved",
  "note": "sequentially consistent interleavings; a program without data races in them has no others in C++. The negative part is C74_first_calls_race and C74_reader_races"
 },
 "C75": {
  "status": "proved",
  "note": "all programs; copying the value inside a Holder can fail only for lack of memory; references got from As are used at once"
 },
 "C76": {
  "status": "proved",
  "note": "the class for POSIX; that mmap fails for length 0 and never returns address 0 here is a hypothesis on the system (Answers.Posix). The exceptions are C76_empty_file, C76_descriptor_zero_leaks and C76_copy_closes_twice"
 }
}