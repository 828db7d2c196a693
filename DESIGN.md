# Formal model of yandex/pire in Lean 4

## Layout

* `lean/Verif/Spec/`   – small specifications (languages, texts, sets, edit distance, captures, ...). They do not mention the
  model, except `FsmLang.lean`, which says what the language of a transition table is (paths).
* `lean/Verif/Model/`  – the model of the C++ code; every definition cites the file and lines in /repo it models.
* `lean/Verif/Proofs/` – helper lemmas, invariants, inductions. Nothing here is part of a claim.
* `lean/Verif/Props/`  – the property theorems. A theorem `Cnn_...` belongs to property `Cnn`; `..._partial` proves part of the
  property. Hypotheses are shown to be satisfiable beside them (section "The hypotheses are met" of each file).
* `properties.jsonl` – the English properties; `MANIFEST.json` (made by `mkmanifest.py` from the theorem names and `notes.json`).
* `seeded/LOG.jsonl` – wrong programs the theorems were tried against.

## Trusted base

* Lean 4.33.0's kernel; Mathlib only as a library of kernel-checked definitions and lemmas.
* Axioms: `propext`, `Classical.choice`, `Quot.sound`. No axioms of our own. `decide +kernel` is used for a few closed facts
  (e.g. that a concrete automaton has at most 17 states); it is evaluated by the kernel. No compiled code is trusted.
* **The translation of the C++ into `Verif/Model` is by hand.** It is written function by function, next to citations, in the
  same order of operations; where something is simplified the comment says so.
* The specifications in `Verif/Spec` say what the English properties mean.

## Modelling conventions

* `Char` letters are numbers; `Epsilon = 257`, `BeginMark = 258`, `EndMark = 259`, `MaxChar = 264` (64-bit, little-endian
  build). A *letter* is a number below 264 other than 257; a word (`IsWord`) is a list of letters.
* `Fsm`: states are `0 .. size-1`; a transition table is a function `state → letter → Option (Finset state)` (`none` = the key is
  absent in the `std::map`, which matters for packing); `std::set` = `Finset` iterated in ascending order (`elems`); outputs and
  tags are partial functions. Loops are folds; `while` loops are well-founded or fuel-bounded with a theorem that the fuel suffices.
* Preconditions that the code assumes (indices in range, letters consistent) are invariants (`WF`, `Coh`, `ColCoh`, `AltInv`,
  collected in `Good`) which every public operation is proved to keep (C21).
* Exceptions are `none` (`Res.throws` in the lexer and parser). Undefined behaviour is never given a meaning: it is a separate
  outcome (`Outcome.bad`, `MapResult.overread`, `Res.bad`, an outer `none`), and theorems say it does not occur or when it does.
* Scanner memory is byte-exact: absolute addresses, `Mem = Nat → byte`, states are row addresses, transitions are 32-bit or
  64-bit stored displacements. Machine integers wrap (`% 2^32`, `% 2^64`) wherever the code computes with them.
* Not modelled: allocation failure, `size_t` overflow of state *counts* (an automaton would need 2^64 states), big-endian and
  32-bit builds, SSE2 intrinsics beyond the byte comparison they compute, `iostream` debugging output, threads.

## What is modelled

| code | model | remarks |
|------|-------|---------|
| `pire/partition.h` | `Model/Partition` | representatives and classes |
| `pire/fsm.h`, `pire/fsm.cpp` | `Model/Fsm`, `FsmProgram`, `Dead`, `Epsilon`, `Determine`, `Minimize` | all public operations except `DumpTo`; `Fsm::Swap` as written (it forgets `m_sparsed`) |
| `pire/determine.h`, `pire/minimize.h` | `Model/Determine`, `Minimize` | the work lists as written |
| `pire/run.h`, `pire/platform.h`, `pire/align.h` | `Model/Run`, `RunDebug`, `RunMulti`, `Align`, `Memory` | chunked and aligned loops, shortcut masks, prefixes and suffixes, `RunHelper` |
| `pire/scanners/multi.h` | `Model/Multi`, `MultiCopy`, `Memory`, `Lifetime` | all four typedefs (relocatable or not, exit masks or not), byte level |
| `pire/inline.lpp` | `Model/Inline` | from the opening parenthesis of `PIRE_REGEXP(` to the text of the literal and its size; not: finding it in the source, comments, `#line`, exit codes |
| `pire/stub/memstreams.h`, `pire/stub/saveload.h` | `Model/Stream` | `MemoryInput`, `AlignedInput`, `AlignedOutput`, `read`/`get`, flags and exceptions of `std::istream`; `BufferOutput` is an ever growing list of bytes |
| `pire/stub/singleton.h` | `Model/Singleton` | any number of threads, sequentially consistent; what the objects contain is not modelled here |
| `pire/any.h` | `Model/Any` | `unique_ptr` and `Holder`; `typeid` is equality of types |
| `tools/common/filemap.h` | `Model/FileMap` | the class for POSIX; descriptors and mappings, not the contents; not the texts of the exceptions |
| `samples/inline/validator.cpp` | `Model/Validator` | what is printed |
| `samples/pigrep/pigrep.cpp`, `samples/blacklist/blacklist.cpp` | `Model/Samples` | arguments of pigrep, what is printed; `getline` and `>>` after the C++ standard; not the parsing of the arguments of blacklist, not the texts of error messages |
| `pire/re_parser.y`, `pire/any.h` | `Model/ParserStack` | the stack, the heap, `new` and `delete`; not the tables of bison; of `Any` only which type it holds |
| `pire/glue.h`, `pire/scanners/common.h` | `Model/Glue`, `Lookup` | incl. the open-addressing state table |
| `pire/scanners/simple.h`, `slow.h`, `pair.h` | `Model/Simple`, `Slow`, `SlowLifetime`, `BitSet`, `RunMulti` | slow scanners: epsilon-free tables; with epsilons for captures |
| `pire/stub/saveload.h`, `pire/scanner_io.cpp`, `Save/Load/Mmap` | `Model/Io` and the scanner files | streams are byte lists; reading past the end throws (C70 relates them to real streams) |
| `pire/scanners/loaded.h`, `pire/extra/count.h` | `Model/Loaded`, `Count`, `Lifetime`, `CountLifetime` | tables, actions, glue, ownership |
| `pire/extra/count.cpp` | `Model/CountCtor` (739-834), `Model/AdvancedCtor` (34-737, 836-873), `Loaded`, `Count` | the three counting constructors with arguments |
| `pire/encoding.cpp`, `stub/utf8.*`, `pire/classes.cpp`, `pire/re_lexer.*`, `pire/read_unicode.cpp`, `pire/extra/glyphs.cpp` | `Model/Encoding`, `Unidata*`, `Lexer` | built-in features: character classes, ranges, and-not, case-insensitivity, glyph similarities, repetition; user-defined features are not modelled |
| `pire/re_parser.y`, the `Lexer` object | `Model/Parser`, `LexerSession` | tokens are pulled one by one and the actions run in between, as bison does (`pull`); the LALR tables made by bison are not modelled: `parse` is a deterministic shift-reduce parser of the same grammar, proved to accept exactly the token sequences spelled by parse trees of the grammar (Props/Pattern) |
| `pire/easy.h`, `pire/easy.cpp` | `Model/Easy` | |
| `pire/approx_matching.cpp` | `Model/Approx` | |
| `pire/half_final_fsm.cpp`, `scanners/half_final.h` | `Model/HalfFinal`, `Model/HalfFinalState`, `Model/Greedy` | `State::Save` is modelled as built with NDEBUG (otherwise its `Y_ASSERT(0)` aborts) |
| `pire/extra/capture.{h,cpp}` | `Model/Capture`, `Model/CaptureParse`, `Model/CaptureIo` | |

Not modelled at all: `pire/stub` apart from the files named above, `tools/bench`, `pire/defs.h` beyond constants.

## Properties

| id | property | status | method | theorems | remarks |
|----|----------|--------|--------|----------|---------|
| C01 | Elementary automata | proved | path analysis of the transition table | 2 | all words; transition tables of both constructors |
| C02 | Appending literals | proved | induction over the literal | 5 | plus the exact failure on packed letters |
| C03 | AppendStrings appends a finite union | proved | trie invariant over the middle loops | 2 | any list of strings; an exception exactly for the empty list |
| C04 | Concatenation | partial | simulation; exact language in all cases | 3 | false of the code when the right operand's initial state is final; proved under that guard, and the exact language is proved in all cases |
| C05 | Union | proved | simulation for the four shapes of alternatives | 2 | all well-formed operands in all four shapes of the isAlternative bookkeeping, chains of unions included |
| C06 | Iteration | proved | path induction | 1 | all well-formed automata |
| C07 | Complement | proved | C16+C18+complementation of total automata | 4 | all automata; the exception happens only if the determiner hits its limit, never below 17 states, and always if the language has more than 200001 rests (C07_throws_if_many_rests) |
| C08 | Intersection | proved | De Morgan as in the code | 1 | all pairs of automata whose complements succeed |
| C09 | Power | proved | induction | 2 | same guard as C04; witness for the excluded case |
| C10 | Surround | proved | path induction | 3 | all well-formed automata |
| C11 | Reverse | proved | reversal of paths | 2 | all well-formed automata; reversing twice is the identity on languages |
| C12 | MakePrefix and MakeSuffix | partial | path induction | 6 | MakePrefix fully; MakeSuffix = all suffixes under reachability and no edge into the initial state (partial, the claim is false otherwise: two witnesses); C12_makeSuffix_exact gives its language in every case |
| C13 | Dead states | proved | breadth-first search invariant | 3 | dead = no final state reachable, for all automata; removal changes exactly the transitions into dead states |
| C14 | Epsilon removal | proved | in-place Warshall closure invariant | 3 | language kept from every state, no epsilon left |
| C15 | Letter classes | proved | induction over appended letters | 9 | partition classes, indices, Sparse/Unsparse/re-packing, all automata |
| C16 | Determinisation | proved | work-list invariant, subset simulation | 5 | language, determinism, completeness; false only beyond the limit; success below the bound; always false if the language has more rests than the limit (C16_fails_if_many_rests) |
| C17 | Generic determiner | proved | work-list invariant for an arbitrary task | 2 | for an arbitrary task, not only Fsm determinisation |
| C18 | Minimisation preserves the language | proved | Hopcroft loop invariant | 2 | all deterministic complete automata |
| C19 | Minimisation is minimal | proved | coarsest partition; Myhill-Nerode | 2 | no two equivalent states; fewest states among all equivalent complete deterministic automata |
| C20 | Canonize | proved | C16+C18+C19 | 5 | minimal automata are unique up to renaming; exponential bound; exception only beyond the limit |
| C21 | Construction stays within bounds | proved | invariants of every operation | 3 | invariant kept by every operation, so every index stays in range in every history of operations |
| C22 | Algebra of automata expressions | partial | structural induction over expressions | 3 | operands excluded by the syntactic guard are exactly those where C04 fails |
| C23 | Compiled scanner decides the language | proved | table simulation at byte level | 11 | compiled table read back byte by byte, Scanner, NonrelocScanner and SimpleScanner; no read outside the block |
| C24 | SlowScanner simulates the NFA | proved | set-of-states simulation | 5 | all automata with at most 2^32 states, arbitrary chunks |
| C25 | Dead flag is sound | proved | C13 through the scanner | 2 | exact for compiled scanners (Dead iff no continuation is accepted) |
| C26 | Glue keeps every regexp | proved | product work list, state numbering | 10 | arbitrary many operands through repeated gluing; failure only beyond the size limit; for compiled, copied and glued scanners C26_by_languages says by the languages alone when it fails (lateA_many: a language for which it does) |
| C27 | State lookup table behaves as a map | proved | invariant over histories of insertions | 3 | histories of insertions of any length; behaviour of a full table is undefined in the code and shown so |
| C28 | Chunked run equals byte-by-byte run | proved | induction over the buffer, alignment arithmetic | 4 | every address, alignment and length C28_debug_build: the same for the loop of debug builds. |
| C29 | Shortcuts do not change the result | proved | masks describe letters a state ignores | 5 | every platform word size, both policies; discharged for compiled scanners |
| C30 | Incremental feeding | proved | append of runs | 5 | arbitrary cuts and buffers |
| C31 | Longest prefix | partial | loop invariant | 11 | exact without shortcuts and for SimpleScanner, SlowScanner; with exit masks exact unless a final state has shortcuts (partial), false otherwise (C31_exit_masks_too_short); for the false case C31_exit_masks_some_prefix and C31_exit_masks_gap say exactly what may be lost: an end within a run of bytes looping in one final state C31_debug_build, C31_debug_longest_prefix: debug builds. |
| C32 | Shortest prefix | proved | loop invariant | 6 | exact for all scanners, shortcuts included C32_debug_build: debug builds. |
| C33 | Suffix searches | partial | loop invariant on reversed text | 5 | LongestSuffix in full; ShortestSuffix exact without the begin mark (partial: the claim with the mark is false, witness), with the mark C33_shortest_suffix_begin_mark gives its behaviour in every case |
| C34 | Running two scanners at once | proved | product of runs | 2 | any two scanners |
| C35 | Save/Load round trip | proved | byte-exact round trip | 33 | Scanner (all four typedefs), SimpleScanner, SlowScanner, and all scanners derived from LoadedScanner (CapturingScanner, the three counting scanners). Streams throw at EOF. The two exceptions in the statement are defects with witnesses: C35_loaded_empty_is_wrong (an empty scanner comes back with one regexp), C35_nolimit_compat_sticks (Load never clears the compatibility flag). |
| C36 | Mmap equals Load | partial | byte-exact parse of mapped memory | 26 | the full property is false: AlignPtr mixes words and bytes, so input lacking up to 7 bytes is accepted (C36_*short_input_accepted), input that ends before the flag is read past its end (C36_*reads_past_the_end), the number of transitions of a LoadedScanner is computed with 32 bits (C36_loaded_forged_counts), the table of actions of a NoGlueLimitCountingScanner is not checked at all (C36_nolimit_actions_unchecked). Proved: everything else for Scanner, SimpleScanner and LoadedScanner (C36_loaded_accepts_iff is exact); mapping of saved bytes for SlowScanner and the counting scanners. |
| C37 | Relocation is transparent | proved | displacement arithmetic | 12 | copies at any address within 2 GB (the limit is shown); default-constructed SlowScanner copies are broken (witness) |
| C38 | UTF-8 round trip | proved | bit arithmetic, case analysis | 11 | all code points and texts; defects for large code points and overlong forms stated |
| C39 | UTF-8 dot | proved | language of the constructed automaton | 4 | dot accepts exactly one encoded character, both encodings |
| C40 | Lexer literals and escapes | proved | stepwise evaluation of the lexer | 16 | all literals and escapes; rejections (of patterns whose counts are ordered) and defects stated as theorems |
| C41 | Counted repetition | proved | structural induction | 6 | all bounds; defects with the empty group and foreign digits stated |
| C42 | Character ranges and classes | proved | finite sets, table facts by the kernel | 15 | all brackets of the grammar in Spec/Brackets; rejections (of patterns whose counts are ordered) and defects stated as theorems |
| C43 | Pattern to language | proved | structural induction over parse trees | 8 | all parse trees of the grammar; the grammar is unambiguous; actions and lexing interleaved as bison runs them; everything else is a syntax error, if its counts are ordered (C43_syntax_error_unnoticed: `a{3,2})` loops before the error is seen) |
| C44 | Case-insensitive literals | proved | Unicode tables, set equations | 10 | all code points of the Unicode tables, kernel-checked table facts |
| C45 | Regexp::Matches | proved | composition of C43 and C23 | 8 | end to end from pattern bytes to Matches, all flags |
| C46 | Approximate matching is bounded edit distance | proved | alignment of edit scripts with paths | 16 | Findings proved beside: a letter added behind a text is missed (C46_missed_behind), packed letters make replacements be missed (C46_missed_after_packing), a determined automaton keeps its flag although the result is not deterministic (C46_determined_flag_stays). |
| C47 | Counting scanner counts | proved | refinement of counters | 8 | All three counting scanners, however assembled (default, from one machine, copied, glued, saved and loaded, mapped). C47_counter_wraps: counters wrap at 2^32. C47_compat_glue_wrong: gluing a NoGlueLimitCountingScanner in compatibility mode misreads its actions. How the machine is made out of the two regexps is C55, C56. |
| C48 | Capturing scanners report positions that the actions justify | proved | fold invariants; exploration invariant; traced runs | 19 | CapturingScanner: C48_positions, C48_within, C48_fixed, C48_order (with the defect case begin > end when an 'end' comes first), C48_begin_before_end; C48_actions_of_residual/C48_end_without_begin show why minimization makes some captures indistinguishable. SlowCapturingScanner: C48_slow_threads, C48_slow_capture, C48_slow_within, C48_slow_order, C48_slow_sound, C48_slow_complete, C48_captured_text (what is reported for a pattern with one group is in the language of the group). Findings: GetCapture true without begin, end of text tried everywhere, only one epsilon after the end mark. Which of several readings is reported (greedy / non-greedy priorities) is modelled but not specified; the Capture feature itself (lexing, marks of the n-th group) is C58; mapped slow capturing scanners are not modelled. |
| C49 | Half-final scanners count occurrences | proved | refinement of counters; greedy = maximal non-overlapping | 18 | HalfFinalScanner: Result(i) = number of prefixes of the text in the i-th language (C49_counts, C49_counts_exact, C49_run over memory), AcceptedRegexps, Final, Dead, Glue keeps both groups of counters (C49_glue). What the languages are: the constructor from an Fsm (C49_constructor_*), MakeNonGreedyCounter with all three option combinations (C49_all_ends, C49_non_overlapping = greatest number of non-overlapping occurrences, C49_simplified). Findings: an ε-matching regexp always counts 1 without intersections (C49_empty_match_counts_one), simplification loses occurrences (C49_simplification_loses). MakeGreedyCounter is C57; State::Save/Load (which asserts and drops the counters) is not modelled. |
| C50 | Bit set behaves as a set | proved | invariant over histories | 3 | histories of insertions and Clear; Resize keeps exactly the elements below the new size, except the shown defect |
| C51 | Byte search trick | proved | word arithmetic | 3 | every word, every platform |
| C52 | Alignment helpers | proved | arithmetic | 3 | all addresses and sizes |
| C53 | Elementary edits | proved | direct | 7 | each edit changes exactly the transitions it names |
| C54 | Parsing always ends | proved | termination measure | 2 | fuel measure: both loops end on every input |
| C55 | What CountingScanner(re, sep) counts | proved | subset construction with tags; product simulation of two words | 7 | CountingScanner(re, sep), count.cpp:739-834: the automaton before and after squaring is described by two words (main and spare), C55_machine for every text. C55_result: the counter is the longest run of increments. C55_pieces, C55_not_too_many: in the orderly case (Steady) it is the longest series of consecutive items of the greedy cut. C55_overcounts_witness: for a\\|aaa the counter exceeds every bound on a text with two matches. Hypotheses (Call): automata as the public operations make them (Good), no tags, [] not matched by re, the limits of Determine are not hit (the constructor ignores its failure); C55_witness meets them. |
| C56 | What the advanced counting scanners count | proved | simulation of the state groups by positions in the series; maximality by the greedy series; work-list and Hopcroft invariants for the tasks | 8 | AdvancedCountingScanner / NoGlueLimitCountingScanner constructors, count.cpp:34-737, 836-873 (automaton re sep* with tags, full determinization with groups, simple fallback, minimization, table). C56_made: legitimate calls succeed. C56_never_too_many for both forms and any text; C56_nothing_to_count; C56_something (full form). C56_exact: the longest series, when matches and separators have no characters in common; for overlapping alphabets only the upper bound and C56_something are claimed, since the construction does not guarantee more. C56_no_separators: a separator matching nothing keeps the counter at 0. C56_small: small calls are legitimate; C56_witness meets all hypotheses. |
| C57 | What greedy half-final counters count | proved | invariant of the counting states (where matches may begin, how many were found since), generic determinization; counterexamples on tables | 8 | MakeGreedyCounter, half_final_fsm.cpp:102-317 (doubling of the automaton, counting states, determinization with both attempts, tags, minimization). C57_simplified and C57_full: the counts equal GreedyMatches (Spec/Greedy) under conditions on the language (WithinDepth, NoSwallowing, NoReturn); C57_small_settles discharges the hypothesis Settles for small automata. Each condition is needed: C57_overcounts, C57_undercounts, C57_default_undercounts, C57_end_mark_ignored, C57_dead_lies are witnesses for concrete regexps with the default MaxCountDepth, obtained by evaluating the counting states on a table that is proved equivalent to the canonical automaton. Examples (a+, abc\\|b) meet the hypotheses. When both attempts of Determine fail the code goes on with a default automaton (finding, no witness). |
| C58 | Features::Capture(n) captures the n-th group | proved | lexer and parser induction as in C40/C43, with a labelling of states as before / inside / behind the group that every construction preserves; runs of the slow scanner as in C48 | 13 | The capture feature (lexing of lazy repetitions, counting of parentheses, marks around the n-th group, Kleene star with marks) and SlowCapturingScanner for it. C58_tokens, C58_language (same language for every n), C58_numbered, C58_captured_text (what is reported matches the n-th group: Alt.nth of Spec/CapturePattern), C58_mandatory_group, C58_no_group, C58_finds, C58_found, C58_found_iff (surrounded patterns). C58_case: the hypotheses are met by a concrete pattern with a lazy repetition. Defects proved: C58_caret_in_group, C58_dollar_in_group (^ and $ in the captured group are never matched), C58_question_in_braces. Which of several readings is reported (greedy / lazy priorities) is modelled, not specified. Patterns with & and ~ are outside of the quantifier. |
| C59 | The captured group is in the leftmost occurrence | proved | invariant on the order of the list of threads; closed sets of epsilon-reachable states for the operations of the parser | 3 | C59_leftmost: Spec/CapturePattern defines Alt.markless, Alt.nullable and Alt.skips (a greedy repetition may be passed before a letter is read); the reported thread began at the least place where the pattern occurs, and the group it reports is inside of an occurrence that begins there. Proved by an invariant on the order of the list of threads (Proofs/CaptureOrder), a property of the automata the parser builds (Proofs/CaptureFresh) and the shape of surrounded automata (Proofs/CaptureSurround). C59_case: hypotheses met. C59_skips_witness: the condition is needed, a*(b) on bb captures [1,2). Which of the occurrences at the leftmost place is reported is not claimed. |
| C60 | Greedy repetitions take as much as possible, lazy ones as little as possible | proved | chains of gadgets for the items (Proofs/CaptureChain, CaptureGadget, CaptureItems); the thread of the preferred match stays in front of every thread that can still match (Proofs/CapturePrefer, CaptureTrack) | 4 | C60_preferred: Spec/Prefer gives the items of a pattern (Alt.items), what it is for a list of numbers of repetitions to match the beginning of a text (Starts) and which of two lists is preferred (Better); the captured group lies between the items that the preferred list assigns to it, at the leftmost place. C60_items: the items match exactly what the pattern means. C60_case: hypotheses met, x(a*)a* and x(a*?)a* on cxaax. Scope: Latin-1, no greedy repetition passable before a letter (needed: C59_skips_witness), no negated classes, no counted repetitions {n,m}, no alternatives (needed: C60_alternatives_witness), no repeated groups. |
| C61 | Slow capturing scanners survive copying, saving and loading, and mapping | proved | the stages of Load undo those of Save; a transition of the mapped arrays is the slice between two positions (Proofs/SlowIo, Proofs/CaptureIo) | 14 | Model/CaptureIo has all fields of the scanner and both ways to store transitions; C61_compiled ties it to the table C48 and C58-C60 are about. C61_round_trip, C61_rest_is_untouched, C61_truncated_rejected, C61_mmap_saved, C61_misaligned_rejected, C61_copy, C61_copy_mapped. Freshly made means need_actions is set, and this is necessary: Mmap and Load of an empty scanner clear it, and what is mapped or loaded next has no actions and cannot be run (C61_second_mmap_breaks, C61_load_after_empty_breaks). C61_case: hypotheses met by the scanner of x(a*)a*. |
| C62 | Scanner variables are values: no sharing, no use of freed memory, no leaks | proved | an invariant of the common memory: blocks are disjoint, every variable has its tables in a live block, no block has two owners or none; each operation is defined and keeps it (Proofs/Lifetime), for every class that satisfies a few laws (Proofs/LifetimeKinds) | 13 | C62_scanner, C62_simple, C62_loaded: every legal program (Spec/Lifetime: Legal, LegalRun) is defined in the model that detects reads of freed memory and double frees, and ends with every variable meaning its value; nothing leaks. C62_assignment, C62_move, C62_load, C62_mmap: the derived operations are legal after any legal program and change exactly the values they should. C62_scanner_compiled, C62_scanner_built, C62_loaded_built, C62_simple_null, C62_loaded_null: what constructors give meets the hypotheses; examples run a program for all three classes. SlowScanner is not included: copying a default-constructed one is broken (C37_slow_copy_of_default_is_broken). |
| C63 | Regexp objects made of scanners, passed by value | proved | an invariant (Whole): either a non-empty valid scanner, or a slow scanner with its own tables; kept by copies and moves (C37), and it implies the answers (C29, C30, C24) | 10 | C63_of_scanner, C63_of_empty_scanner, C63_of_slow: the constructors. C63_copy, C63_move, C63_pattern: chains of copies and moves; C63_moved_from: what is left. The exceptions named in the statement are theorems: C63_of_default_slow_breaks, C63_copy_of_empty_breaks, C63_copy_of_moved_breaks. Examples: a pattern with options, a compiled scanner copied three times. |
| C64 | Slow scanner variables are values | proved | forward simulation between pointers and values: every object either owns the two arrays in its pool and points to its own vector, or owns nothing and refers to static or mapped arrays; pools are disjoint | 13 | C64_values (with C64_language, C64_capturing for what variables recognise and capture, C64_no_leak). C64_assignment, C64_load, C64_load_empty, C64_mmap: the operations that are made of others. C64_capturing_built, C64_slow_built, C64_start, C64_program, C64_mapped_program: the hypotheses are met. The exception is part of the specification (Held.broken). |
| C65 | NoGlueLimitCountingScanner variables are values | proved | product of the simulation of C62 (tables) and one for the action arrays: each variable owns the array it points to, or owns none and points to a mapped one or nowhere; owners are disjoint | 13 | C65_values; C65_alike_counts and C65_counts: what variables count; C65_no_leak. C65_assignment, C65_move, C65_move_assignment, C65_load, C65_mmap: the operations that are made of others. C65_program, C65_built_actions: the hypotheses are met. Two defects of Load when it throws: C65_failed_load_dangles, C65_failed_load_breaks_copy (such a Load is not an operation of the programs). |
| C66 | Fsm variables are values, also when an operator names one variable twice | partial | objects in a store, operands read where the code reads them; the row loop of Import with an iterator that may leave the table; invariant: every variable holds the language of its expression; each operation on distinct places equals the operation on values | 10 | Partial because the code is wrong in general: C66_self_append_is_undefined and C66_self_union_is_undefined (for every automaton), and the C04 defect of + is excluded by Expr.Ok. C66_programs_partial is the statement otherwise; C66_never_outside, C66_in_bounds, C66_frame, C66_completes. C66_self_by_value: x + x, x \\| x, x &= x, x *= 2 work. Defects of the observer Connected after Swap and += (m_sparsed is forgotten): C66_swap_misleads_observers, C66_append_misleads_observers. |
| C67 | A half-final scanner's state that was saved and loaded continues the scan | proved | bytes of the saved state; two runs from the same scanner state keep the difference of their counters (induction over the text); C49 for the absolute counts | 6 | C67_roundtrip, C67_counts_since_loaded, C67_fresh_state, C67_truncated, C67_storable (every state of a scan fits the format). C67_counts_are_lost is a defect: Save writes only the size of the vector of counters, Load sets all counters to zero. |
| C68 | A lexer can be used for several patterns | proved | the lexer object as a state machine over its calls; induction over the history; for captures a mutual induction over the tree: fields that capture nothing stay as they are | 8 | C68_reuse is the property; C68_message_rejects_all and C68_capture_shifts are the defects, with witnesses. What a parse that failed leaves of the input is not modelled, so Parse after a failed Parse without Assign is not covered. |
| C69 | PIRE_REGEXP(...) is replaced by a scanner for its regexps | proved | reading: induction over the text against a grammar of C++ string literals (Spec/CText); automaton: C43 with C10, C11, C07; scanner: induction over the regexps with the invariant that the scanner recognises them, is reduced and storable; text: the literal is unique as C++ reads it; then C36 | 18 | C69_inline is the property from the text of the arguments to the mapped scanner; C69_last_backslash, C69_hex_escape, C69_octal_escape(_last), C69_line_break and C69_glue_failure_unnoticed are the defects outside its assumptions. Finding PIRE_REGEXP( in the source text, comments and #line are not modelled. |
| C70 | Loading from real streams | proved | each Load as a sequence of reads; induction over it: a simulation between stream buffers, and between a stream and a list of bytes; the sequences equal the load functions of the other models | 18 | LoadsLike is the property for a single Load, shown for the seven kinds; it carries C35, C49 and the other round trips over to streams. C70_truncated_unnoticed(_simple), C70_memory_four_gigabytes, C70_memory_two_gigabytes and C70_get_repeats are the defects. std::istream::read itself is modelled after the C++ standard. |
| C71 | The sample programs pigrep and blacklist | proved | composition of C02, C04, C05, C10, C23, C29, C36 and C43; the language of the two fixed patterns by algebra of languages; induction over the text for lines and words | 11 | C71_pigrep and C71_blacklist are end to end: from the text of the pattern or dictionary to the text that is printed. They rest on the theorems about the lexer, the parser, the automata, the scanner, saving and mapping. Lines, words, Scheme, Subdomains, Path and Listed are in Spec/Samples. |
| C72 | The parser does not misuse or lose memory | proved | invariant: the values on the stack are distinct, are all there is on the heap, and stand for the tokens read; induction over the steps; by induction over the tree that the steps exist | 11 | the tables of bison are not modelled: any sequence of steps is allowed in which a production is reduced only if its right hand side is on top of the stack. C72_parses and C72_throws: such steps exist for every pattern. The leak is C72_exception_leaks, with `~.*a.{17}` as a case. |
| C73 | The sample program validator | proved | composition of C36, C43, C69 and C71; the language of the pattern by algebra of languages | 2 | from the text of the macro call in the source to what is printed; that the C++ compiler puts the bytes of the generated string literal into memory, 8-aligned, is a hypothesis |
| C74 | The tables of the library and threads | proved | invariant of all interleavings: a thread that has made an object never comes to make another; witnesses of the races | 6 | sequentially consistent interleavings; a program without data races in them has no others in C++. The negative part is C74_first_calls_race and C74_reader_races |
| C75 | Any has values, not pointers | proved | refinement: every non-empty variable owns exactly one holder; induction over the program | 3 | all programs; copying the value inside a Holder can fail only for lack of memory; references got from As are used at once |
| C76 | Mapped files are not lost and not closed twice | proved | cases of the answers of the system | 5 | the class for POSIX; that mmap fails for length 0 and never returns address 0 here is a hypothesis on the system (Answers.Posix). The exceptions are C76_empty_file, C76_descriptor_zero_leaks and C76_copy_closes_twice |

## Findings: where the code does not do what a user would expect

Each item marked † has a machine-checked witness (a theorem in `Props/`); the positive theorems exclude exactly these cases.

1. † `a += b` loses words if the initial state of `b` is final (C04, C09).
2. † Appending letters to an automaton whose letters are already packed appends to whole classes or nothing (C02).
3. † `Fsm::Swap` does not swap `m_sparsed`, and `Import` (`+=`, `|=`) does not reset it: afterwards `Connected` and `Destinations` ask about the byte 0,
   whatever letter they are given (C66_swap_misleads_observers, C66_append_misleads_observers).
4. † `MakeSuffix` needs every state reachable and no edge into the initial state (C12).
5. † `LongestPrefix` with exit masks may return a shorter prefix (C31). † `ShortestSuffix` does not call `TakeAction` on its way (C33).
6. `Minimize` looks at finality only, so outputs of merged transitions are kept from the first one only (C48_actions_of_residual).
7. † `Mmap` of an empty `SimpleScanner`/`SlowScanner` leaves `*this` unchanged; copying a default `SlowScanner` dereferences null (C24, C35–C37).
8. † `AlignPtr` mixes units: `Mmap` accepts input that is up to 7 bytes short; some sizes read past the end of the input (C36).
9. † The lookup table of `Glue` works only below its capacity (C27); † the counters of counting scanners wrap at 2^32 (C47).
10. † `a |= a` and `a += a` are undefined for every automaton: `Import` runs an iterator off the end of the table it has just resized
    (C66_self_append_is_undefined, C66_self_union_is_undefined); `a = a | a`, `a = a + a`, `a &= a` work.
11. † `a{3,2}` makes the parser loop without end (C41), also when a syntax error follows (C43_syntax_error_unnoticed); digits of a count overflow `int`; † non-ASCII digits are accepted in counts.
12. Lexer: † `\x{100000041}` is `A`; † `\x{F064}` is `\d`; † U+F000–U+F0FF are rejected or misread; † `[z-a]` is silently empty; † `[\Dx]` excludes `x` (in general: C42_capital_in_bracket);
    † `[NUL-a]` is no range; † a range ending at 0xFFFFFFFF never ends; † two U+F0FF truncate the pattern; `\ÿ` equals the end of input (C40, C42).
13. `HalfFinalFsm::Compile` lacks a return statement; † `NoGlueLimitCountingScanner::Load` never resets its compatibility flag (C35_nolimit_compat_sticks);
    † glue of compatibility-mode scanners misreads actions (C47_compat_glue_wrong).
14. † UTF-8: overlong sequences are accepted, code points ≥ 0x200000 are encoded wrongly, `FromLocal` on empty input reads `*end` (C38).
15. † `CreateApproxFsm` misses insertions behind the text, keeps `determined`, and misses replacements for packed letters (C46).
16. † `BitSet::Resize` leaves stale bits (C50). † User tags with low bits corrupt the flags of a scanner (C23).
17. † Case-insensitive `µ`, and titlecase letters (C44).
18. † `CountingScanner(re, sep)` may over-count without limit: for `a|aaa` the text `aaxzzz...` counts every `z` (C55_overcounts_witness). Outputs are stored per
    pair of states, so two different transitions share one action (this is why C55_machine allows "another character that leads to the same situation").
    The constructor ignores a failure of `Determine` (count.cpp:739-834) and goes on with an automaton that is not deterministic.
19. † Half-final counters: an ε-matching regexp counts once; simplification loses occurrences (C49).
20. Capturing: † `begin > end` if an "end" comes first (C48_order); † a capture may be "ended" where nothing was begun (C48_end_without_begin);
    † `SlowCapturingScanner::GetCapture` returns true without a begin (C48_slow_true_without_begin); † it takes every position for the end of the
    text (C48_slow_dollar_everywhere); † only one epsilon is tried after the end mark (C48_slow_one_epsilon); a packed automaton loses letters.
21. † A saved empty `LoadedScanner` comes back with one regexp (C35_loaded_empty_is_wrong); † its number of transitions is computed with 32 bits
    (C36_loaded_forged_counts); † `NoGlueLimitCountingScanner::Mmap` does not check the size of its table of actions (C36_nolimit_actions_unchecked).
22. † `AdvancedCountingScanner(re, sep)` with a `sep` that matches nothing always counts 0, even if `re` matches once (C56_no_separators).
23. † Greedy half-final counters (C57): with the default settings `a|abc|b` counts `abc` twice (C57_overcounts), `(xyz)*(d|y)` misses a match in
    `xyzqy` (C57_undercounts), `abbc|b` one in `abbq` (C57_default_undercounts); `a$|b` is never found in `a`, since `Import` does not import final
    states (C57_end_mark_ignored); without simplification `Dead` may be true while matches are still counted, because the number of matches is
    stored in the tag, whose bit 1 is `DeadFlag` (C57_dead_lies). If both attempts of `Determine` fail, the result is a default automaton, silently.
24. † The capture feature (C58): surrounded, `(^a)` and `(a$)` are found in no text (C58_caret_in_group, C58_dollar_in_group), since the marks put one
    epsilon too many around the group; `a{?2}` is accepted and means `a{2}` (C58_question_in_braces), while `a{2}?` is a syntax error; a group inside
    of a repetition reports one of its iterations.
25. † A surrounded pattern that begins with a greedy repetition is not captured at its leftmost occurrence: `a*(b)` on `bb` reports `[1, 2)`
    (C59_skips_witness). The exit of a greedy repetition has the lowest priority, lower than waiting for a later beginning.
26. † With alternatives the slow capturing scanner need not take the first one that leads to a match: `a(b*|a)a*` on `aa` captures `[1, 2)`
    (C60_alternatives_witness); the exit of the greedy `b*` has a lower priority than the other alternative.
27. † `SlowScanner::Mmap` swaps the target with a local scanner made without `need_actions`, so a `SlowCapturingScanner` can be mapped only once: mapped again,
    `m_actions` is null and `Initialize` reads through it (C61_second_mmap_breaks). Loading an empty scanner clears the flag as well: what is loaded next has no
    actions (C61_load_after_empty_breaks), and they stay in the stream. A default-constructed `SlowCapturingScanner` cannot be initialised
    (C61_default_cannot_run). What a mapped one saves cannot be loaded (C61_mapped_save_unloadable). The header does not tell capturing slow scanners from plain
    ones: a `SlowScanner` loads what a capturing one has saved and leaves the actions in the stream (C61_plain_load_leaves_actions).
28. † A copy of a `Regexp` without expressions (`Regexp(Scanner())`, or a moved-from one) reads through a null pointer on every text, and so does
    `Regexp(SlowScanner())` itself: the slow scanner in it is a copy of a default-constructed one (C63_copy_of_empty_breaks, C63_copy_of_moved_breaks,
    C63_of_default_slow_breaks).
29. † `NoGlueLimitCountingScanner::Load` is not safe against exceptions: it assigns `ActionsBuffer` (which deletes the old array) before it reads the new actions and
    sets `Actions` only afterwards. If the stream ends within the actions, `Actions` points to deleted memory (C65_failed_load_dangles), or, if there were none,
    the new tables are without actions and a copy dereferences a null pointer (C65_failed_load_breaks_copy).
30. † `HalfFinalScanner::State::Save` stores the number of counters but not the counters; `Load` sets them to zero, so a state that has counted
    anything is not equal to itself after Save and Load (C67_counts_are_lost). `Save` ends in `Y_ASSERT(0)`, so without NDEBUG it aborts.
31. † `Lexer::ErrMsg()` is never cleared: after one pattern with an error in its characters (`a[`) every later `Assign` + `Parse` throws, even for a good
    pattern (C68_message_rejects_all, C68_witness).
32. † The fields of `Features::Capture` are not reset by `Assign` or `Parse`: a lexer used again captures another group, or none (C68_capture_shifts).
33. † `pire_inline` reads `"\x41"` as a zero byte and `41` (C69_hex_escape): the pointer stands on the `x` when the digits are skipped.
34. † `pire_inline` loses the character after an octal escape sequence, and rejects a literal that ends with one (C69_octal_escape, C69_octal_escape_last).
35. † `pire_inline` does not see the end of a literal whose last character is an escaped backslash and takes the text after it as part of it (C69_last_backslash).
36. † A line break in a pattern, `PIRE_REGEXP("a\nb", "")`, ends the `//` comment that `pire_inline` generates, so that the rest of the pattern is compiled as program
    text (C69_line_break). GCC joins lines at a backslash followed by blanks, so a pattern ending with a backslash has the same effect on the line after it.
37. † `pire_inline` does not notice that `Scanner::Glue` has given up and goes on with the empty scanner: the regexps so far are dropped (C69_glue_failure_unnoticed).
38. The flag `u` of `pire_inline` sets the encoding of the `Lexer`, but its characters are the bytes of the pattern (`Assign` from `char*`): a pattern with
    non-ASCII letters is not decoded, and its bytes from 128 on are sign-extended.
39. † `Load` does not look at the state of the stream. From a stream that does not throw at its end — a `std::ifstream` by default, and an `AlignedInput` even if the stream
    it reads from would throw — a truncated scanner is loaded without an exception, its tables completed by what the memory contained (C70_truncated_unnoticed,
    C70_truncated_unnoticed_simple). The stream has failed then, which is the only way to notice (C70_check_the_stream).
40. † `MemoryInput` advances by `gbump(int)`: reading 4 GB at once does not advance it, reading 2 GB moves it before the beginning (C70_memory_four_gigabytes,
    C70_memory_two_gigabytes).
41. † `CountingStreambuf::underflow` looks at a character of the other buffer without taking it: `get()` (and `>>`, `getline`) on an `AlignedInput` sees the same character
    for ever (C70_get_repeats).
42. † An exception in an action of the grammar (an automaton too large to be complemented) leaves `yyparse` without running the `%destructor`: the values on the stack leak
    (C72_exception_leaks, C72_case_leaks).
43. † `Singleton` is not thread safe (its FIXME says so): as every `Lexer` calls it, parsing the first two patterns of a program in two threads is a data race
    (C74_first_calls_race, C74_reader_races).
44. † `FileMmap` takes descriptor 0 for none: if the standard input is closed, the file is never closed (C76_descriptor_zero_leaks). Its copies unmap and close twice
    (C76_copy_closes_twice).
