## Findings: where the code does not do what a user would expect

Each item marked † has a machine-checked witness (a theorem in `Props/`); the positive theorems exclude exactly these cases.

1. † `a += b` loses words if the initial state of `b` is final (C04, C09).
2. † Appending letters to an automaton whose letters are already packed appends to whole classes or nothing (C02).
3. † `Fsm::Swap` does not swap `m_sparsed`, and `Import` (`+=`, `|=`) does not reset it: afterwards `Connected` and `Destinations` ask about the byte 0,
   whatever letter they are given (C66_swap_misleads_observers, C66_append_misleads_observers).
4. † `MakeSuffix` needs every state reachable and no edge into the initial state (C12).
5. † `LongestPrefix` with exit masks may return a shorter prefix (C31). † `ShortestSuffix` does not call `TakeAction` on its way (C33).
6. `Minimize` looks at finality only, so outputs of merged transitions are kept from the first one only (C48_actions_of_residual).
7. † `Mmap` of an empty `SimpleScanner`/`SlowScanner` leaves `*this` unchanged; copying a default `SlowScanner` dereferences null (C24, C35–C37).
8. † `AlignPtr` mixes units: `Mmap` accepts input that is up to 7 bytes short; some sizes read past the end of the input (C36).
9. † The lookup table of `Glue` works only below its capacity (C27); † the counters of counting scanners wrap at 2^32 (C47).
10. † `a |= a` and `a += a` are undefined for every automaton: `Import` runs an iterator off the end of the table it has just resized
    (C66_self_append_is_undefined, C66_self_union_is_undefined); `a = a | a`, `a = a + a`, `a &= a` work.
11. † `a{3,2}` makes the parser loop without end (C41), also when a syntax error follows (C43_syntax_error_unnoticed); digits of a count overflow `int`; † non-ASCII digits are accepted in counts.
12. Lexer: † `\x{100000041}` is `A`; † `\x{F064}` is `\d`; † U+F000–U+F0FF are rejected or misread; † `[z-a]` is silently empty; † `[\Dx]` excludes `x` (in general: C42_capital_in_bracket);
    † `[NUL-a]` is no range; † a range ending at 0xFFFFFFFF never ends; † two U+F0FF truncate the pattern; `\ÿ` equals the end of input (C40, C42).
13. `HalfFinalFsm::Compile` lacks a return statement; † `NoGlueLimitCountingScanner::Load` never resets its compatibility flag (C35_nolimit_compat_sticks);
    † glue of compatibility-mode scanners misreads actions (C47_compat_glue_wrong).
14. † UTF-8: overlong sequences are accepted, code points ≥ 0x200000 are encoded wrongly, `FromLocal` on empty input reads `*end` (C38).
15. † `CreateApproxFsm` misses insertions behind the text, keeps `determined`, and misses replacements for packed letters (C46).
16. † `BitSet::Resize` leaves stale bits (C50). † User tags with low bits corrupt the flags of a scanner (C23).
17. † Case-insensitive `µ`, and titlecase letters (C44).
18. † `CountingScanner(re, sep)` may over-count without limit: for `a|aaa` the text `aaxzzz...` counts every `z` (C55_overcounts_witness). Outputs are stored per
    pair of states, so two different transitions share one action (this is why C55_machine allows "another character that leads to the same situation").
    The constructor ignores a failure of `Determine` (count.cpp:739-834) and goes on with an automaton that is not deterministic.
19. † Half-final counters: an ε-matching regexp counts once; simplification loses occurrences (C49).
20. Capturing: † `begin > end` if an "end" comes first (C48_order); † a capture may be "ended" where nothing was begun (C48_end_without_begin);
    † `SlowCapturingScanner::GetCapture` returns true without a begin (C48_slow_true_without_begin); † it takes every position for the end of the
    text (C48_slow_dollar_everywhere); † only one epsilon is tried after the end mark (C48_slow_one_epsilon); a packed automaton loses letters.
21. † A saved empty `LoadedScanner` comes back with one regexp (C35_loaded_empty_is_wrong); † its number of transitions is computed with 32 bits
    (C36_loaded_forged_counts); † `NoGlueLimitCountingScanner::Mmap` does not check the size of its table of actions (C36_nolimit_actions_unchecked).
22. † `AdvancedCountingScanner(re, sep)` with a `sep` that matches nothing always counts 0, even if `re` matches once (C56_no_separators).
23. † Greedy half-final counters (C57): with the default settings `a|abc|b` counts `abc` twice (C57_overcounts), `(xyz)*(d|y)` misses a match in
    `xyzqy` (C57_undercounts), `abbc|b` one in `abbq` (C57_default_undercounts); `a$|b` is never found in `a`, since `Import` does not import final
    states (C57_end_mark_ignored); without simplification `Dead` may be true while matches are still counted, because the number of matches is
    stored in the tag, whose bit 1 is `DeadFlag` (C57_dead_lies). If both attempts of `Determine` fail, the result is a default automaton, silently.
24. † The capture feature (C58): surrounded, `(^a)` and `(a$)` are found in no text (C58_caret_in_group, C58_dollar_in_group), since the marks put one
    epsilon too many around the group; `a{?2}` is accepted and means `a{2}` (C58_question_in_braces), while `a{2}?` is a syntax error; a group inside
    of a repetition reports one of its iterations.
25. † A surrounded pattern that begins with a greedy repetition is not captured at its leftmost occurrence: `a*(b)` on `bb` reports `[1, 2)`
    (C59_skips_witness). The exit of a greedy repetition has the lowest priority, lower than waiting for a later beginning.
26. † With alternatives the slow capturing scanner need not take the first one that leads to a match: `a(b*|a)a*` on `aa` captures `[1, 2)`
    (C60_alternatives_witness); the exit of the greedy `b*` has a lower priority than the other alternative.
27. † `SlowScanner::Mmap` swaps the target with a local scanner made without `need_actions`, so a `SlowCapturingScanner` can be mapped only once: mapped again,
    `m_actions` is null and `Initialize` reads through it (C61_second_mmap_breaks). Loading an empty scanner clears the flag as well: what is loaded next has no
    actions (C61_load_after_empty_breaks), and they stay in the stream. A default-constructed `SlowCapturingScanner` cannot be initialised
    (C61_default_cannot_run). What a mapped one saves cannot be loaded (C61_mapped_save_unloadable). The header does not tell capturing slow scanners from plain
    ones: a `SlowScanner` loads what a capturing one has saved and leaves the actions in the stream (C61_plain_load_leaves_actions).
28. † A copy of a `Regexp` without expressions (`Regexp(Scanner())`, or a moved-from one) reads through a null pointer on every text, and so does
    `Regexp(SlowScanner())` itself: the slow scanner in it is a copy of a default-constructed one (C63_copy_of_empty_breaks, C63_copy_of_moved_breaks,
    C63_of_default_slow_breaks).
29. † `NoGlueLimitCountingScanner::Load` is not safe against exceptions: it assigns `ActionsBuffer` (which deletes the old array) before it reads the new actions and
    sets `Actions` only afterwards. If the stream ends within the actions, `Actions` points to deleted memory (C65_failed_load_dangles), or, if there were none,
    the new tables are without actions and a copy dereferences a null pointer (C65_failed_load_breaks_copy).
30. † `HalfFinalScanner::State::Save` stores the number of counters but not the counters; `Load` sets them to zero, so a state that has counted
    anything is not equal to itself after Save and Load (C67_counts_are_lost). `Save` ends in `Y_ASSERT(0)`, so without NDEBUG it aborts.
31. † `Lexer::ErrMsg()` is never cleared: after one pattern with an error in its characters (`a[`) every later `Assign` + `Parse` throws, even for a good
    pattern (C68_message_rejects_all, C68_witness).
32. † The fields of `Features::Capture` are not reset by `Assign` or `Parse`: a lexer used again captures another group, or none (C68_capture_shifts).
33. † `pire_inline` reads `"\x41"` as a zero byte and `41` (C69_hex_escape): the pointer stands on the `x` when the digits are skipped.
34. † `pire_inline` loses the character after an octal escape sequence, and rejects a literal that ends with one (C69_octal_escape, C69_octal_escape_last).
35. † `pire_inline` does not see the end of a literal whose last character is an escaped backslash and takes the text after it as part of it (C69_last_backslash).
36. † A line break in a pattern, `PIRE_REGEXP("a\nb", "")`, ends the `//` comment that `pire_inline` generates, so that the rest of the pattern is compiled as program
    text (C69_line_break). GCC joins lines at a backslash followed by blanks, so a pattern ending with a backslash has the same effect on the line after it.
37. † `pire_inline` does not notice that `Scanner::Glue` has given up and goes on with the empty scanner: the regexps so far are dropped (C69_glue_failure_unnoticed).
38. The flag `u` of `pire_inline` sets the encoding of the `Lexer`, but its characters are the bytes of the pattern (`Assign` from `char*`): a pattern with
    non-ASCII letters is not decoded, and its bytes from 128 on are sign-extended.
39. † `Load` does not look at the state of the stream. From a stream that does not throw at its end — a `std::ifstream` by default, and an `AlignedInput` even if the stream
    it reads from would throw — a truncated scanner is loaded without an exception, its tables completed by what the memory contained (C70_truncated_unnoticed,
    C70_truncated_unnoticed_simple). The stream has failed then, which is the only way to notice (C70_check_the_stream).
40. † `MemoryInput` advances by `gbump(int)`: reading 4 GB at once does not advance it, reading 2 GB moves it before the beginning (C70_memory_four_gigabytes,
    C70_memory_two_gigabytes).
41. † `CountingStreambuf::underflow` looks at a character of the other buffer without taking it: `get()` (and `>>`, `getline`) on an `AlignedInput` sees the same character
    for ever (C70_get_repeats).
42. † An exception in an action of the grammar (an automaton too large to be complemented) leaves `yyparse` without running the `%destructor`: the values on the stack leak
    (C72_exception_leaks, C72_case_leaks).
43. † `Singleton` is not thread safe (its FIXME says so): as every `Lexer` calls it, parsing the first two patterns of a program in two threads is a data race
    (C74_first_calls_race, C74_reader_races).
44. † `FileMmap` takes descriptor 0 for none: if the standard input is closed, the file is never closed (C76_descriptor_zero_leaks). Its copies unmap and close twice
    (C76_copy_closes_twice).
