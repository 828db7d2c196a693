{"id": "C01", "title": "Elementary automata", "statement": "A default-constructed Fsm accepts exactly the empty string, and Fsm::MakeFalse() accepts nothing at all.", "quantifier": "every string over the 263 input letters", "why_tests_cant": "a test tries finitely many strings; the claim is about all of them", "anchors": ["pire/fsm.cpp: Fsm::Fsm, Fsm::MakeFalse", "pire/fsm.h: Fsm"]}
{"id": "C02", "title": "Appending literals", "statement": "Append(c), Append(str), AppendSpecial(c) and AppendDot() turn a freshly built Fsm accepting L into one accepting L followed by exactly that letter, that string, that special letter, or any single byte; nothing else is accepted. (For an Fsm whose letters were packed by Determine/Canonize/Complement the claim is false of the code for Append of a letter that is not its class representative; that is shown as well.)", "quantifier": "every Fsm built by the API with unpacked letters, every letter, every string", "why_tests_cant": "infinitely many automata and strings", "anchors": ["pire/fsm.cpp: Fsm::Append, Fsm::AppendSpecial, Fsm::AppendDot, Fsm::ConnectFinal"]}
{"id": "C03", "title": "AppendStrings appends a finite union", "statement": "AppendStrings(strings) turns an Fsm accepting L into one accepting exactly the concatenations of a word of L with one of the strings, sharing prefixes correctly whatever prefix relations hold between the strings; it throws when one of the strings is empty.", "quantifier": "every Fsm, every list of byte strings (any number, any lengths, repeated or prefix-related)", "why_tests_cant": "prefix-sharing interactions are unbounded", "anchors": ["pire/fsm.cpp: Fsm::AppendStrings"]}
{"id": "C04", "title": "Concatenation", "statement": "a += b (and a + b) accepts exactly the concatenations of a word of a with a word of b, provided the initial state of b is not itself final. When it is final (b = Fsm(), b = x*0, pattern `()`) the code drops the empty word of b; a concrete wrong answer is exhibited.", "quantifier": "every pair of well-formed automata, every word", "why_tests_cant": "all automata, all words", "anchors": ["pire/fsm.cpp: Fsm::operator+=, Fsm::Import"]}
{"id": "C05", "title": "Union", "statement": "a |= b (and a | b) accepts exactly the words accepted by a or by b, for all four combinations of the internal 'is already an alternative' shortcut, and any chain of unions keeps the shortcut sound.", "quantifier": "every pair of automata obtained through the API, every word, every sequence of unions", "why_tests_cant": "the shortcut makes the result history-dependent", "anchors": ["pire/fsm.cpp: Fsm::operator|=, Fsm::Import, Fsm::ClearHints"]}
{"id": "C06", "title": "Iteration", "statement": "Iterate() (and unary *) turns an automaton for L into one for exactly L* (the empty word included), even if the initial state has incoming transitions or is final.", "quantifier": "every well-formed automaton, every word", "why_tests_cant": "unbounded number of iterations", "anchors": ["pire/fsm.cpp: Fsm::Iterate"]}
{"id": "C07", "title": "Complement", "statement": "When Complement() (operator ~) does not throw, the result accepts exactly the words over the 263 input letters that the original rejects; it throws only if determinisation needs more than the internal state limit.", "quantifier": "every well-formed automaton, every word", "why_tests_cant": "depends on determinisation and minimisation of arbitrary automata", "anchors": ["pire/fsm.cpp: Fsm::Complement, Fsm::Determine, Fsm::Minimize"]}
{"id": "C08", "title": "Intersection", "statement": "When a &= b does not throw, the result accepts exactly the words accepted by both.", "quantifier": "every pair of well-formed automata, every word", "why_tests_cant": "all automata, all words", "anchors": ["pire/fsm.cpp: Fsm::operator&="]}
{"id": "C09", "title": "Power", "statement": "a * n accepts exactly the n-fold concatenations of words of a (the empty word only when n = 0), provided the initial state of a is not final.", "quantifier": "every well-formed automaton, every n, every word", "why_tests_cant": "n and the automaton are unbounded", "anchors": ["pire/fsm.cpp: Fsm::operator*(size_t)", "pire/fsm.h: operator*="]}
{"id": "C10", "title": "Surround", "statement": "PrependAnything/AppendAnything/Surround accept exactly the words having a suffix/prefix/factor in the original language, over all 263 letters (marks included).", "quantifier": "every well-formed automaton, every word", "why_tests_cant": "all automata, all words", "anchors": ["pire/fsm.cpp: Fsm::Surround, Fsm::PrependAnything, Fsm::AppendAnything"]}
{"id": "C11", "title": "Reverse", "statement": "Reverse() accepts exactly the mirror images of the words accepted before; two reversals restore the language.", "quantifier": "every well-formed automaton, every word", "why_tests_cant": "all automata, all words", "anchors": ["pire/fsm.cpp: Fsm::Reverse"]}
{"id": "C12", "title": "MakePrefix and MakeSuffix", "statement": "MakePrefix() accepts exactly the prefixes of accepted words. MakeSuffix() accepts exactly the suffixes of accepted words when every state is reachable from the initial one and no transition enters the initial state (otherwise it accepts too much: two witnesses are shown).", "quantifier": "every well-formed automaton, every word", "why_tests_cant": "all automata, all words", "anchors": ["pire/fsm.cpp: Fsm::MakePrefix, Fsm::MakeSuffix, Fsm::RemoveDeadEnds"]}
{"id": "C13", "title": "Dead states", "statement": "DeadStates() returns exactly the states that are unreachable from the initial state or from which no final state can be reached, and RemoveDeadEnds() does not change the accepted language.", "quantifier": "every well-formed automaton (any graph shape, cycles included)", "why_tests_cant": "breadth-first search over arbitrary graphs", "anchors": ["pire/fsm.cpp: Fsm::DeadStates, Fsm::RemoveDeadEnds"]}
{"id": "C14", "title": "Epsilon removal", "statement": "RemoveEpsilons() does not change the accepted language and leaves no epsilon transition, whatever the shape (cycles, chains in any state order) of the epsilon graph.", "quantifier": "every well-formed automaton, every word", "why_tests_cant": "the in-place Floyd-Warshall closure must be right for every numbering of states", "anchors": ["pire/fsm.cpp: Fsm::RemoveEpsilons, Fsm::ShortCutEpsilon, Fsm::MergeEpsilonConnection"]}
{"id": "C15", "title": "Letter classes", "statement": "Sparse() groups letters into classes exactly by having the same transitions from every state: each letter is in one class, Representative(a)=Representative(b) iff a and b are equivalent, class indices are distinct and lie in 0..Size()-1; Sparse/Unsparse do not change the language.", "quantifier": "every transition table, every letter", "why_tests_cant": "all tables", "anchors": ["pire/partition.h: Partition::Append, Representative, Index", "pire/fsm.cpp: Fsm::Sparse, Fsm::Unsparse, Fsm::LettersEquality"]}
{"id": "C16", "title": "Determinisation", "statement": "If Determine(maxSize) returns true the automaton has exactly one transition per state and letter, no epsilons, at most maxSize+1 states, all reachable from the initial one, and the same language; if it returns false the language is unchanged. The early cut-off for states that accept everything does not alter the language.", "quantifier": "every well-formed automaton, every limit", "why_tests_cant": "subset construction over arbitrary automata", "anchors": ["pire/fsm.cpp: Fsm::Determine, Impl::FsmDetermineTask", "pire/determine.h: Determine"]}
{"id": "C17", "title": "Generic determiner", "statement": "The generic worklist algorithm enumerates every state reachable from the initial one by required states, each exactly once and with the initial state first, records for each of them the transition the task defines, and gives up exactly when more than maxSize additional states exist.", "quantifier": "every task (state type, letters, transition function), every limit", "why_tests_cant": "the algorithm is a template, instantiated with arbitrary tasks", "anchors": ["pire/determine.h: Determine"]}
{"id": "C18", "title": "Minimisation preserves the language", "statement": "Minimize() on a determined automaton keeps the language, never increases the number of states, and merges only states from which exactly the same words are accepted.", "quantifier": "every determined automaton", "why_tests_cant": "Hopcroft's worklist with the smaller-half trick must be right for every automaton", "anchors": ["pire/minimize.h: Minimize", "pire/fsm.cpp: Impl::FsmMinimizeTask"]}
{"id": "C19", "title": "Minimisation is minimal", "statement": "After Minimize() no two distinct states accept the same words; after Canonize() of a not yet determined automaton no deterministic machine for the same language has fewer states.", "quantifier": "every determined automaton", "why_tests_cant": "minimality is a statement about all words from all pairs of states", "anchors": ["pire/minimize.h: Minimize"]}
{"id": "C20", "title": "Canonize", "statement": "Canonize() either throws (only if more sets of states than the limit are reachable) or leaves a deterministic automaton with the same language and pairwise inequivalent states; the result is unique up to renaming of states.", "quantifier": "every well-formed automaton", "why_tests_cant": "composition of determinisation and minimisation", "anchors": ["pire/fsm.cpp: Fsm::Canonize"]}
{"id": "C21", "title": "Construction stays within bounds", "statement": "Every high-level operation maps well-formed automata to well-formed automata: initial, final and target states are existing states, so none of the unchecked vector accesses done by later operations is out of range.", "quantifier": "every sequence of API calls", "why_tests_cant": "all histories of calls", "anchors": ["pire/fsm.cpp: Fsm (all operations)"]}
{"id": "C22", "title": "Algebra of automata expressions", "statement": "Any expression built with the API operations (literals, +, |, &, ~, *, *n, Surround, Reverse) accepts exactly the language the expression denotes, as long as no operand on the right of + (or base of *n) has a final initial state and no complement throws.", "quantifier": "every expression tree", "why_tests_cant": "arbitrarily nested combinations", "anchors": ["pire/fsm.h: operators", "pire/fsm.cpp"]}
{"id": "C23", "title": "Compiled scanner decides the language", "statement": "A Scanner, NonrelocScanner or SimpleScanner compiled from an Fsm, run from Initial() over any word, ends in a Final() state iff the Fsm accepts the word; compiling never loses or adds transitions and the tag/jump table addresses stay in the allocated block.", "quantifier": "every Fsm that can be canonised, every word", "why_tests_cant": "all automata, all words", "anchors": ["pire/scanners/multi.h: Scanner::Init, SetJump, SetTag, FinishBuild", "pire/scanners/simple.h", "pire/fsm.h: BuildScanner"]}
{"id": "C24", "title": "SlowScanner simulates the NFA", "statement": "SlowScanner compiled from any Fsm (below 2^32 states) accepts a word iff the Fsm accepts it; feeding is the same with Next character by character, with Run at once, or in pieces; it never reads outside of its tables and never lists an automaton state twice.", "quantifier": "every Fsm, every word", "why_tests_cant": "all automata, all words", "anchors": ["pire/scanners/slow.h: SlowScanner"]}
{"id": "C25", "title": "Dead flag is sound", "statement": "If Dead(s) holds for a scanner state s, then no continuation of the input leads to a final state.", "quantifier": "every compiled scanner, every reachable state, every continuation", "why_tests_cant": "all continuations", "anchors": ["pire/scanners/multi.h: Scanner::Dead", "pire/fsm.h: BuildScanner", "pire/run.h"]}
{"id": "C26", "title": "Glue keeps every regexp", "statement": "Scanner::Glue(a, b), if it does not give up, accepts exactly when a or b does, and AcceptedRegexps of a reached state is the list of indexes accepted by a followed by the indexes accepted by b shifted by a.RegexpsCount(); an empty operand is neutral; exceeding the size limit yields an empty scanner and nothing else. For compiled scanners and what is glued from them, the limit is exceeded exactly if more words than the limit plus one are told apart by the regexps (that is, continue differently), which depends on the regexps only.", "quantifier": "every pair of scanners (already glued or not), every word", "why_tests_cant": "all scanners, all words", "anchors": ["pire/scanners/multi.h: ScannerGlueTask, Scanner::Glue, AcceptedRegexps", "pire/glue.h: ScannerGlueCommon, LettersEquality"]}
{"id": "C27", "title": "State lookup table behaves as a map", "statement": "The fixed-size open-addressing table used while gluing returns for a key exactly the value inserted for it (or not-found), for every insertion history that keeps the table below its capacity.", "quantifier": "every history of insertions and lookups within capacity", "why_tests_cant": "collision chains depend on the whole history", "anchors": ["pire/glue.h: GluedStateLookupTable"]}
{"id": "C28", "title": "Chunked run equals byte-by-byte run", "statement": "Run(scanner, state, begin, end) gives the same final state as feeding the bytes one at a time with Step, for every start address alignment and length (head, aligned words, tail), for scanners without shortcuts.", "quantifier": "every scanner, state, byte buffer, alignment", "why_tests_cant": "all alignments and lengths", "anchors": ["pire/run.h: Impl::DoRun, AlignedRunner, RunChunk, SafeRunChunk"]}
{"id": "C29", "title": "Shortcuts do not change the result", "statement": "With ExitMasks shortcutting, Run skips whole words of bytes that cannot leave the current state (or stops early in a no-exit state), and still returns the same state as byte-by-byte stepping.", "quantifier": "every compiled scanner with exit masks, every buffer, every alignment", "why_tests_cant": "the shortcut data interact with every byte value and every alignment", "anchors": ["pire/scanners/multi.h: ExitMasks, MaskChecker, AlignedRunner<Scanner<Relocation, ExitMasks>>, BuildShortcuts"]}
{"id": "C30", "title": "Incremental feeding", "statement": "Splitting an input at any point and running the two parts one after the other reaches the same state as running the whole input at once, for every scanner kind and for RunHelper with begin/end marks.", "quantifier": "every split of every input", "why_tests_cant": "all histories of chunks", "anchors": ["pire/run.h: Run, RunHelper"]}
{"id": "C31", "title": "Longest prefix", "statement": "LongestPrefix returns null when no prefix of the text (optionally after the begin mark) is accepted and otherwise a pointer just past the longest accepted prefix, stopping early in dead states never changes that — for scanners that call the predicate after every byte; for scanners with ExitMasks it can return a shorter prefix (witness shown).", "quantifier": "every scanner, every text, every alignment", "why_tests_cant": "all texts and alignments", "anchors": ["pire/run.h: LongestPrefix, LongestPrefixPred"]}
{"id": "C32", "title": "Shortest prefix", "statement": "ShortestPrefix returns null when no prefix is accepted and otherwise a pointer past the shortest accepted prefix, also with ExitMasks shortcutting.", "quantifier": "every scanner, every text, every alignment", "why_tests_cant": "all texts and alignments", "anchors": ["pire/run.h: ShortestPrefix, ShortestPrefixPred"]}
{"id": "C33", "title": "Suffix searches", "statement": "LongestSuffix/ShortestSuffix scan backwards from the last byte and return the pointer just before the longest/shortest part whose reversed bytes the scanner accepts, or null.", "quantifier": "every scanner, every text", "why_tests_cant": "all texts", "anchors": ["pire/run.h: LongestSuffix, ShortestSuffix"]}
{"id": "C34", "title": "Running two scanners at once", "statement": "Running a ScannerPair (or the two-scanner Run) leaves each scanner in the state it would have reached alone.", "quantifier": "every pair of scanners and states, every text", "why_tests_cant": "all texts, all pairs", "anchors": ["pire/scanners/pair.h: ScannerPair", "pire/run.h: Run(scanner1, scanner2)"]}
{"id": "C35", "title": "Save/Load round trip", "statement": "Loading what Save wrote yields a scanner with the same states, transitions, tags, letter classes, regexp counts and empty flag, and consumes exactly the bytes written, for every scanner type (except: an empty scanner derived from LoadedScanner; a NoGlueLimitCountingScanner loaded into one that has read an AdvancedCountingScanner's file before); streams with wrong magic, version, type or truncated data are rejected with an error.", "quantifier": "every scanner, every stream content, every truncation point", "why_tests_cant": "all scanners and all corrupted prefixes", "anchors": ["pire/scanner_io.cpp", "pire/scanners/multi.h: ScannerSaver", "pire/scanners/common.h: Header", "pire/stub/saveload.h"]}
{"id": "C36", "title": "Mmap equals Load", "statement": "Mmap over the bytes written by Save gives a scanner equal to the saved one and returns a pointer just past them, or throws on misaligned or short input; it never reads past the given size.", "quantifier": "every scanner, every buffer, every size", "why_tests_cant": "all buffers", "anchors": ["pire/scanners/multi.h: Scanner::Mmap", "pire/scanners/simple.h", "pire/scanners/common.h: MapPtr"]}
{"id": "C37", "title": "Relocation is transparent", "statement": "Relocatable (32-bit displacement) and non-relocatable scanners built from the same automaton visit corresponding states; going to a state through the stored displacement is exact as long as the block is smaller than 2^31 bytes, and converting one into the other preserves the language.", "quantifier": "every automaton, every block address, every word", "why_tests_cant": "all addresses and displacements, including negative ones", "anchors": ["pire/scanners/multi.h: Relocatable, Nonrelocatable, Scanner::DeepCopy"]}
{"id": "C38", "title": "UTF-8 round trip", "statement": "Decoding the UTF-8 encoding of any code point below 0x200000 with the Utf8 encoding gives back that code point and consumes exactly the encoded bytes; encoding always yields 1..4 bytes.", "quantifier": "every code point, every following byte sequence", "why_tests_cant": "1.1 million code points times arbitrary continuations", "anchors": ["pire/encoding.cpp: Utf8", "pire/stub/utf8.cpp", "pire/stub/codepage_h.h"]}
{"id": "C39", "title": "UTF-8 dot", "statement": "Utf8().AppendDot accepts exactly one well-formed UTF-8 sequence as the decoder delimits it: it accepts a byte string iff the decoder consumes it whole as one character.", "quantifier": "every byte string", "why_tests_cant": "all byte strings", "anchors": ["pire/encoding.cpp: Utf8::AppendDot"]}
{"id": "C40", "title": "Lexer literals and escapes", "statement": "Every usable character reaches the parser as itself, a backslash before a special character makes it literal, and \\n \\t \\r \\xHH \\x{H..H} \\a \\e \\f \\b.. denote the documented characters and classes; so a quoted text is a pattern for exactly that text. Malformed escapes, counts and brackets are rejected. Exceptions of the code (escaped non-ASCII characters, reserved code points, codes above 2^32) are witnessed.", "quantifier": "every pattern text, every set of options", "why_tests_cant": "all character sequences", "anchors": ["pire/re_lexer.cpp: Lexer::DoLex, CountedRepetition, Lexer::PeekChar", "pire/read_unicode.cpp"]}
{"id": "C41", "title": "Counted repetition", "statement": "x{m,n}, x{m,}, x{n}, x?, x+, x* accept exactly the repetitions in the stated range of counts when x's initial state is not final and m <= n; x{m,n} with m > n is not diagnosed but never ends (witness).", "quantifier": "every automaton for x, all counts", "why_tests_cant": "all counts", "anchors": ["pire/re_parser.y: Iteration", "pire/re_lexer.cpp: Lexer repetition"]}
{"id": "C42", "title": "Character ranges and classes", "statement": "A bracket expression [..] or [^..] denotes exactly the union (or complement within single characters) of its characters, ranges and classes, in the chosen encoding, with and without case insensitivity; exceptions of the code (reversed ranges, a negated class inside a bracket, trailing dash, NUL, private use) are witnessed.", "quantifier": "every bracket expression", "why_tests_cant": "all sets of characters", "anchors": ["pire/re_lexer.cpp: CharacterRangeReader, Lexer::DoLex", "pire/re_parser.y: AppendRange", "pire/classes.cpp"]}
{"id": "C43", "title": "Pattern to language", "statement": "Parsing a pattern (concatenation, alternation, conjunction &, complement ~, repetition, groups, anchors, dot, literals) produces an automaton whose language is the one the parse tree denotes, under the initial-state proviso of C04; the tree is determined by the text; texts outside the grammar are never accepted, and are rejected with an exception unless a count with reversed bounds stands in them (then parsing may not end, see C41).", "quantifier": "every pattern text, every option set, both encodings", "why_tests_cant": "arbitrarily nested patterns", "anchors": ["pire/re_parser.y"]}
{"id": "C44", "title": "Case-insensitive literals", "statement": "With the case-insensitive feature a literal accepts exactly its upper and lower case variants in the encoding, with the glyph-similarity feature its look-alikes; the order in which features are added does not matter; the case relation is reflexive and symmetric except for the listed characters (titlecase letters, micro sign and other one-way mappings), which are witnessed.", "quantifier": "every character, every encoding", "why_tests_cant": "all characters", "anchors": ["pire/extra/glyphs.cpp", "pire/re_lexer.cpp: CaseInsensitiveImpl", "pire/easy.h"]}
{"id": "C45", "title": "Regexp::Matches", "statement": "Regexp(pattern, options).Matches(text) is true iff a word of the pattern's language (C43, C44) occurs in the text, where ^ matches only before the text and $ only behind it; the answer does not depend on whether a Scanner could be built or a SlowScanner had to be taken. A quoted text t as a pattern matches iff a reading of t occurs in the text; ^t$ iff the whole text is a reading of t. A pattern with bytes outside the encoding or tokens outside the grammar (and no count with reversed bounds) makes the constructor throw; every other pattern without ~, & and [^...] constructs.", "quantifier": "every pattern of the grammar, every combination of options, every text in memory at any alignment", "why_tests_cant": "all patterns, options, texts and alignments", "anchors": ["pire/easy.h: Regexp::Regexp, Regexp::Init, Regexp::BeginsWithCircumflex, Regexp::Matches, Options"]}
{"id": "C46", "title": "Approximate matching is bounded edit distance", "statement": "CreateApproxFsm(re, d) accepts no word that is more than d edits (replacing, dropping, adding a letter, exchanging two neighbours) away from the language; it accepts every word of the language, and every word at Levenshtein distance at most d if the words are closed by a mark ($); for automata without epsilons and unpacked letters its language is exactly the words at most d edits away (nothing added behind the end if nothing leads on from the final states). With d = 0 the automaton is unchanged. Scanners compiled with a distance recognise that language.", "quantifier": "every automaton, every distance, every word", "why_tests_cant": "all words and distances", "anchors": ["pire/approx_matching.cpp: CreateApproxFsm", "pire/scanners/multi.h, simple.h, slow.h: constructors with distance"]}
{"id": "C47", "title": "Counting scanner counts", "statement": "CountingScanner, AdvancedCountingScanner and NoGlueLimitCountingScanner have one counter per regexp, in the order of gluing; after any text (short of 2^31 characters) each counter shows the longest series of increments without a reset which the machine of its own regexp produces on that text, no matter how the scanner has been copied and glued. Glue yields the empty scanner exactly when there are more than 16 regexps (where there is a limit) or more pairs of states than allowed.", "quantifier": "every machine, every way of copying and gluing, every text", "why_tests_cant": "all histories of actions", "anchors": ["pire/extra/count.h: CountingScanner, PerformIncrement, PerformReset", "pire/extra/count.cpp"]}
{"id": "C48", "title": "Capturing scanners report positions that the actions justify", "statement": "CapturingScanner: Begin()/End() are the positions of the last 'begin'/'end' action seen before the capture was complete; they lie within the text, are frozen once captured, and Begin() < End() whenever no 'end' action precedes the first 'begin'. SlowCapturingScanner: it never fails, follows at most one thread per state, and GetCapture reports a way to read the text or a prefix of it up to acceptance exactly if there is one; for a pattern with one capture group the text from Begin() to End() is in the language of the group, and begin/end are within the text.", "quantifier": "every automaton with actions, every group and every context of concatenations around it, every text", "why_tests_cant": "all histories of actions and all nondeterministic threads", "anchors": ["pire/extra/capture.h: CapturingScanner, SlowCapturingScanner", "pire/extra/capture.cpp: SetCaptureMark, SetRepetitionMark"]}
{"id": "C49", "title": "Half-final scanners count occurrences", "statement": "After any text, HalfFinalScanner's Result(i) is the number of prefixes of the text that the i-th glued regexp's automaton accepts. So a scanner made by MakeNonGreedyCounter(true,false) returns the number of positions where an occurrence of the regexp ends; by MakeNonGreedyCounter(false) the greatest number of non-overlapping occurrences (for regexps that do not match the empty word); HalfFinalScanner(Fsm) counts shortest matches if the language is closed under continuation and otherwise becomes 1 exactly when the text with its end mark is accepted. AcceptedRegexps lists the regexps with non-zero counters, Dead means that no counter will change any more, and Glue keeps all counters.", "quantifier": "every automaton, every text, every number of glued scanners, every address", "why_tests_cant": "all texts and automata; maximality of the count quantifies over all ways to place occurrences", "anchors": ["pire/scanners/half_final.h: HalfFinalScanner, State, TakeAction, BuildFinals", "pire/half_final_fsm.cpp: MakeScanner, MakeHalfFinal, DisconnectFinals, MakeNonGreedyCounter, GetCount"]}
{"id": "C50", "title": "Bit set behaves as a set", "statement": "A BitSet of n bits (used by SlowScanner states) behaves as a set of numbers below n: after any history of Set, Reset and Clear, Test tells exactly the positions set and not reset or cleared since, the size stays, and no access leaves its storage.", "quantifier": "every n, every sequence of Set/Reset/Clear/Test operations on positions below n", "why_tests_cant": "all sizes, all histories", "anchors": ["pire/vbitset.h: BitSet"]}
{"id": "C51", "title": "Byte search trick", "statement": "The word-at-a-time check used by exit masks reports a hit iff one of the bytes of the word equals the wanted byte (never a false negative or false positive), for all words and bytes.", "quantifier": "all 2^64 words and all bytes", "why_tests_cant": "2^72 combinations", "anchors": ["pire/platform.h: CheckBytes, IsAnySet", "pire/scanners/multi.h: MaskChecker"]}
{"id": "C52", "title": "Alignment helpers", "statement": "AlignUp/AlignDown return the nearest multiple of the bound above/below, IsAligned tells whether a pointer is one, and AlignSave/AlignLoad keep the position a multiple of the bound.", "quantifier": "every size, every power-of-two bound", "why_tests_cant": "all sizes", "anchors": ["pire/align.h"]}
{"id": "C53", "title": "Elementary edits", "statement": "Connect adds, Disconnect removes, Divert redirects exactly the given transitions (Divert takes their output along), SetFinal and Resize change nothing else, as told by Connected and IsFinal afterwards.", "quantifier": "every automaton, all states and letters", "why_tests_cant": "all automata, including the transitions that must stay", "anchors": ["pire/fsm.cpp: Fsm::Connect, Fsm::Disconnect, Fsm::Divert, Fsm::SetFinal, Fsm::Resize"]}
{"id": "C54", "title": "Parsing always ends", "statement": "Lexing a pattern ends with tokens or an error, and parsing it ends with an automaton or an error, unless the pattern has a count whose bounds are reversed; in particular no pattern of ordinary characters makes the lexer run past the end of its input or loop.", "quantifier": "every pattern text, every option set", "why_tests_cant": "all texts, including malformed ones", "anchors": ["pire/re_lexer.cpp: Lexer::Lex, Lexer::DoLex", "pire/re_parser.y"]}
{"id": "C55", "title": "What CountingScanner(re, sep) counts", "statement": "The scanner built from a regexp and a separator cuts the text greedily from left to right into pieces and shows the length of the longest series of consecutive pieces that are a separator followed by a match; it shows 0 when nothing matches, and never more than there are consecutive matches, provided that a match that can be prolonged to a longer match is prolonged through matches only. Without this proviso the counter may be too large, without limit.", "quantifier": "every regexp (not matching the empty word) and separator for which the construction stays below the determinization limit; every text shorter than 2^31", "why_tests_cant": "all pairs of automata and all texts: the construction squares the automaton and determinizes it with outputs, so wrong counts appear only for rare pairs", "anchors": ["pire/extra/count.cpp: CountingScanner::CountingScanner (739-834)", "pire/extra/count.h: CountingScanner"]}
{"id": "C56", "title": "What the advanced counting scanners count", "statement": "AdvancedCountingScanner(re, sep) and NoGlueLimitCountingScanner(re, sep) succeed when the limits allow it and make one counter. The counter never shows more matches than the longest series of matches of re in the text with nothing but matches of sep between them. It shows 0 when there is no match. When the construction does not fall back to the simple form, it shows at least 1 if there is a match, and exactly the length of the longest series if matches and separators are nonempty and have no characters in common. If sep matches nothing at all, the counter stays 0.", "quantifier": "every pair of automata for which the determinization limits of the constructors are not hit; every text shorter than 2^31; every way to assemble the scanner (glued, saved, loaded, mapped)", "why_tests_cant": "all pairs of automata and all texts; the construction keeps sets of states annotated with the position in the series, and chooses one of two algorithms by size", "anchors": ["pire/extra/count.cpp: CountingFsm and its determination tasks (34-737), MakeAdvancedCountingScanner (836-873)", "pire/extra/count.h: AdvancedCountingScanner, NoGlueLimitCountingScanner"]}
{"id": "C57", "title": "What greedy half-final counters count", "statement": "HalfFinalFsm::MakeGreedyCounter turns a regexp into a counter of its matches, where the leftmost longest match is taken and the scan goes on behind it. The simplified counter (the default) is exact at every moment, before and behind the end mark, and is never dead, if no match lies inside an unfinished one. The full counter is exact behind the end mark, and before it lacks less than MaxCountDepth matches, if less than MaxCountDepth matches lie inside an unfinished one, a match that has been found is not swallowed by a longer one after other matches were found behind it, and matching does not begin anew inside a match. Outside these conditions both may count too many or too few, a match that needs the end mark is never counted, and the full counter may claim to be dead while it still counts.", "quantifier": "every regexp (not matching the empty word) for which the counting determinization stays within 200001 states; every text; every scanner type and base address", "why_tests_cant": "the counting states are built by a determinization over lists of states with bounded counters: whether a count is right depends on the whole language and on every text", "anchors": ["pire/half_final_fsm.cpp: MakeGreedyCounter (102-114), HalfFinalDetermineState (118-224), HalfFinalDetermineTask (226-304), Determine (307-317)", "pire/half_final_fsm.h: MakeGreedyCounter", "pire/scanners/half_final.h"]}
{"id": "C58", "title": "Features::Capture(n) captures the n-th group", "statement": "Parsing a pattern with the capture feature for group n gives a regexp for the same language as the pattern has, whatever n is (or a syntax error where the pattern needs one). After *, + and ? one more question mark makes the repetition lazy; groups are numbered from 1 by their opening parentheses. Compiled into SlowCapturingScanner, as it is or surrounded, what GetCapture reports after any text is a substring that matches what is between the parentheses of the n-th group, with begin before end and both inside the text; something is captured whenever something is found and every match passes the group; nothing is captured if there is no n-th group. A surrounded pattern without ^ and $ is found in exactly those texts that contain a match. A ^ or $ inside of the captured group, however, is never matched by a surrounded pattern, and a{?2} is accepted.", "quantifier": "every pattern of the documented syntax without & and ~ (with lazy repetitions), every choice of features and encoding, every group number, every text", "why_tests_cant": "ranges over all patterns with groups nested and repeated in any way, and all texts; a scanner follows many readings of the text at once and any of them may be reported", "anchors": ["pire/extra/capture.cpp: CaptureImpl (32-126)", "pire/extra/capture.h: SlowCapturingScanner (180-580), Features::Capture", "pire/re_lexer.cpp: DoLex (104-144), Parenthesized", "pire/re_parser.y: 82-159"]}
{"id": "C59", "title": "The captured group is in the leftmost occurrence", "statement": "A pattern parsed with the capture feature for group n, surrounded and compiled into SlowCapturingScanner: whenever the pattern occurs in the text, GetCapture succeeds after the text, and there is an occurrence [i, j) of the pattern such that no occurrence begins before i and the reported begin and end of the group lie within [i, j), the text between them matching the group (or nothing is captured, if some matches do not pass the group). This holds for patterns without ^, $, & and ~ in which no greedy repetition can be passed before the first letter of a match; a*(b) on bb, where one can, captures the second b instead.", "quantifier": "every pattern of the documented syntax without ^, $, & and ~ (with lazy and greedy repetitions) whose greedy repetitions cannot be passed before a letter is read, every choice of features and encoding, every group number, every text", "why_tests_cant": "the choice among the readings is made by the order of a list of threads that is rebuilt at every letter in an order of priorities; that the earliest thread always stays in front must hold for all patterns and all texts", "anchors": ["pire/extra/capture.h: SlowCapturingScanner NextAndGetToGroups (416-450), UpdateNList (524-533), NextTranslated (545-562), GetCapture (493-512)", "pire/extra/capture.cpp: CaptureImpl (32-126)", "pire/fsm.cpp: Surround (1198-1203)"]}
{"id": "C60", "title": "Greedy repetitions take as much as possible, lazy ones as little as possible", "statement": "A pattern that is a sequence of letters, classes and dots, each with or without *, +, ? (followed by one more ? if lazy), and of groups of such sequences, parsed with the capture feature for group n, surrounded and compiled into SlowCapturingScanner: whenever the pattern occurs in the text, GetCapture reports the n-th group of the preferred match. The preferred match begins at the leftmost place where the pattern matches, and every other way to match at that place differs from it first in an item that it repeats more often if the item is greedy, and less often if it is lazy. Begin and end of the group are where the items before the group and the items of the group end in that match. With alternatives this is not so: a(b*|a)a* on aa captures the second alternative although the first leads to a match too.", "quantifier": "every sequence of letters, classes and dots with greedy and lazy *, +, ? and nested unrepeated groups in which no greedy repetition can be passed before a letter is read, every group number, every text (Latin-1)", "why_tests_cant": "the choice is made by the order of a list of threads that is rebuilt at every letter; that this order follows the priorities of a backtracking matcher must hold for all such patterns and all texts, while the number of ways to match grows exponentially", "anchors": ["pire/extra/capture.h: SlowCapturingScanner NextAndGetToGroups (416-450), Captured (453-483), UpdateNList (524-533), NextTranslated (545-562), GetCapture (493-512)", "pire/extra/capture.cpp: CaptureImpl (32-126)", "pire/re_parser.y: iteration (122-151)", "pire/fsm.cpp: Surround (1198-1203)"]}
{"id": "C61", "title": "Slow capturing scanners survive copying, saving and loading, and mapping", "statement": "A compiled SlowCapturingScanner that is saved with Save and loaded with Load into a freshly made SlowCapturingScanner is the same scanner, actions included; exactly the written bytes are consumed, and every proper prefix of them is rejected with an exception. Mapping these bytes with Mmap at an aligned address into a freshly made scanner gives a scanner that runs and captures on every text like the saved one, and a pointer right behind the bytes; a misaligned pointer is rejected. Copies, also of mapped scanners, behave like the original.", "quantifier": "every well-formed automaton with at most 2^32 states and less than 2^62 transitions, every approximation distance, every text, every stream remainder, every cut point, every aligned address", "why_tests_cant": "the layout (vectors of different lengths, a table of positions, a parallel array of actions, paddings) depends on the automaton, and the mapped scanner takes a separate code path for every transition; agreement must hold for all automata, texts and offsets", "anchors": ["pire/scanners/slow.h: Mmap (173-201), Swap (203-223), copy constructor (225-250), Alias (372-385), SetJump (387-397)", "pire/scanner_io.cpp: SlowScanner::Save (71-110), SlowScanner::Load (112-170)", "pire/extra/capture.h: SlowCapturingScanner NextStates (390-405)"]}
{"id": "C62", "title": "Scanner variables are values: no sharing, no use of freed memory, no leaks", "statement": "Any program that default-constructs, compiles, copies, assigns (also to itself), moves, swaps, loads, maps and destroys scanner variables in any order never reads a block that has been freed and never frees a block twice; every variable that exists recognises (or counts and captures) exactly what a plain value in its place would: operations on one variable never change another, whatever is written over freed memory; and every block still allocated belongs to an existing variable.", "quantifier": "every legal finite history of operations over any number of variables, all addresses the allocator may return, all contents written over freed and unmapped memory; Scanner (all typedefs), SimpleScanner, LoadedScanner and its derived classes", "why_tests_cant": "aliasing and lifetime errors depend on the order of operations and on what the allocator does with freed memory; the number of histories is unbounded, and a test run usually finds the freed bytes still intact", "anchors": ["pire/scanners/multi.h: copy and move constructors, Swap, operator= (196-239), Mmap (245-288), Alias (391-401), DeepCopy (403-445), Load (574-616)", "pire/scanners/simple.h: copy constructor, Alias, Swap, operator=, Mmap (83-152)", "pire/scanners/loaded.h: copy and move constructors, Swap, operator=, Alias, Mmap (77-155)", "pire/scanner_io.cpp: Load (51-69, 194-217)"]}
{"id": "C63", "title": "Regexp objects made of scanners, passed by value", "statement": "Regexp(scanner).Matches(text) answers what the scanner answers on the text between the marks (a glued scanner: whether any of its expressions matches), Regexp(slowScanner) what the slow scanner answers; an expression made of a pattern or of a scanner answers the same after being copied and moved any number of times, and Matches never goes out of bounds. (Violated by copies of an expression without expressions, and by expressions made of a default-constructed slow scanner: their Matches reads through a null pointer.)", "quantifier": "every valid scanner and slow scanner, every pattern, every chain of copies and moves, every text at any address on any platform", "why_tests_cant": "unbounded chains of copies, all scanners, texts and alignments; the unused member of a Regexp is broken by copying and only matters in cases a test does not think of", "anchors": ["pire/easy.h: Regexp(Scanner), Regexp(SlowScanner) (152-153), Matches (155-161), m_scanner, m_slow (184-185)", "pire/scanners/multi.h: copy and move constructors (196-212)", "pire/scanners/slow.h: copy constructor (225-250)"]}
{"id": "C64", "title": "Slow scanner variables are values", "statement": "A program that constructs, copies, assigns, swaps, loads, maps and destroys SlowScanner and SlowCapturingScanner variables in any order, using each while it exists and keeping mapped memory mapped while it is used, never reads freed memory and frees nothing twice; at every point each variable is the scanner it should be by value (it recognises and captures what the scanner it was built, loaded or copied from does), whatever has happened to other variables; and when all variables are gone nothing stays allocated except the static empty scanner. (Copies of a default-constructed scanner have lost their jumps.)", "quantifier": "every program over any number of variables, every scanner, every place the allocator may choose", "why_tests_cant": "all histories of aliasing, self-pointing members and freed memory; a dangling pointer to the vector of another scanner only shows when that one has gone", "anchors": ["pire/scanners/slow.h: default constructor (76-79), Mmap (173-201), Swap (203-223), copy constructor (225-250), constructors (252-283), operator= (285), destructor (287-291), Alias (372-385), Null (427-431)", "pire/scanner_io.cpp: SlowScanner::Load (112-170)", "pire/extra/capture.h: SlowCapturingScanner constructors (572-580)"]}
{"id": "C65", "title": "NoGlueLimitCountingScanner variables are values", "statement": "A program that constructs, glues, copies, assigns, moves, swaps, loads, maps and destroys NoGlueLimitCountingScanner variables in any order, using each while it exists and keeping mapped memory mapped while it is used, never reads freed memory (neither tables nor action arrays) and frees nothing twice; at every point each variable counts exactly as the scanner it holds by value, whatever has happened to other variables; when all variables are gone nothing stays allocated. (Provided that no Load ends with an exception: then the variable may be left pointing to freed memory.)", "quantifier": "every program over any number of variables, every scanner and text, every place the allocator may choose", "why_tests_cant": "all histories of sharing between owned, copied and mapped arrays; a dangling pointer only shows when the other owner has gone", "anchors": ["pire/extra/count.h: NoGlueLimitCountingScanner (359-401), AcceptActions (476-484)", "pire/extra/count.cpp: constructor (870-873), Load (1020-1040), Mmap (1042-1061)", "pire/scanners/loaded.h: copy constructor, Swap, Mmap (79-155)"]}
{"id": "C66", "title": "Fsm variables are values, also when an operator names one variable twice", "statement": "A program of statements over Fsm variables (constructors, copies, Swap, +=, |=, &=, *=, +, |, &, ~, *, Iterate, Complement, Surround, Reverse, Canonize, ...), in which the same variable may be named several times in a statement, leaves in each variable an automaton accepting exactly the language of the expression the variable stands for; a statement changes no variable but the one on its left. (x += x and x |= x are excluded: they walk off the end of the transition table for every automaton.)", "quantifier": "every program over any number of variables, every operand and every word", "why_tests_cant": "all sequences of operations, all ways operands can coincide, all words", "anchors": ["pire/fsm.h: operators (66-83)", "pire/fsm.cpp: Swap (253-263), Import (378-428), operator += (470-497), operator |= (499-528), operator &= (530-538), operator * (576-582)"]}
{"id": "C67", "title": "A half-final scanner's state that was saved and loaded continues the scan", "statement": "Saving a state of HalfFinalScanner and loading it gives a state from which the scan continues where it was: whatever text follows, the results are the counts of the matches behind the point of saving. What had been counted before is not stored and is lost; a state that has counted nothing comes back equal. Truncated input is rejected.", "quantifier": "every scanner, every text before and after the point of saving, every regexp of the scanner", "why_tests_cant": "all texts on both sides of the point of saving", "anchors": ["pire/scanners/half_final.h: HalfFinalScanner::State::Save (95-102), Load (104-112), Result, operator==", "pire/stub/saveload.h"]}
{"id": "C68", "title": "A lexer can be used for several patterns", "statement": "Assigning another pattern to a Lexer that has already been used and parsing it gives what a new lexer with the same features and encoding gives, whatever was parsed or rejected before. This holds as long as the lexer has no error message; a message is set by an error in the characters of a pattern (not by a syntax error) and, being never cleared by the library, makes every later Parse throw until the user clears it (a defect). With Features::Capture(k) the lexer goes on counting the groups: after a pattern with n groups it captures group k-n of the next one, none if k <= n (a defect). Parse called twice without Assign gives the empty text the second time.", "quantifier": "every sequence of Assign, AddFeature, SetEncoding, SetErrMsg and Parse on one lexer, every pattern, every k", "why_tests_cant": "all histories of one lexer object, all patterns", "anchors": ["pire/re_lexer.h: Lexer (107-187), Assign, ErrMsg, SetErrMsg", "pire/re_lexer.cpp: Lexer::Parse (379-387)", "pire/re_parser.y: yylex, yyerror, yre_parse (163-188, 264-275)", "pire/extra/capture.cpp: CaptureImpl (30-128)"]}
{"id": "C69", "title": "PIRE_REGEXP(...) is replaced by a scanner for its regexps", "statement": "pire_inline replaces PIRE_REGEXP(\"regexp1\", \"flags1\", ...) by a comment and a string literal which a C++ compiler reads as exactly the bytes of the saved scanner; MmappedScanner given these bytes (aligned) and the generated size yields a scanner that recognises all the regexps in their order, each with its flags (i, u, s, a, g, r) applied: parsed with the features, reversed, then surrounded or made greedy. Unknown flags, g together with s, an odd number of arguments and regexps that do not parse are errors. Assumed: ASCII patterns written without octal or hexadecimal escapes, no literal ending with a backslash, no line break in a pattern. Outside that the code is wrong: hexadecimal escapes are read as a zero and the digits; an octal escape swallows the next character or is rejected at the end of the literal; a literal ending with an escaped backslash swallows the text after it; a line break in a pattern ends the comment, so that the rest of the pattern becomes program text; if Glue gives up (more than 80001 words are told apart by the regexps), the earlier regexps are silently dropped.", "quantifier": "every argument text, every list of up to 53000 regexps and flags, every address the scanners and the literal are put at, every saved scanner shorter than 4 GB", "why_tests_cant": "all regexps, all flags, all texts, all tables", "anchors": ["pire/inline.lpp (87-198)", "pire/run.h: MmappedScanner (402-409)", "pire/defs.h: PIRE_LITERAL (98-114)"]}
{"id": "C70", "title": "Loading from real streams", "statement": "Load of every scanner type (and of the state of a HalfFinalScanner) from a std::istream on a file, on a MemoryInput of less than 2 GB or on an AlignedInput reads the same as from a sequence of bytes: if the bytes contain a complete scanner, that scanner is loaded, the stream stays good and stands right behind it; if not, Load throws, provided that the stream throws at its end (MemoryInput does). Whoever finds that the stream has not failed after Load has the scanner that was stored. What was written to an AlignedOutput, pieces and alignments in any order, is read back by the same sequence from an AlignedInput; Align(2^k) makes the number of bytes a multiple of 2^k. Where the code is wrong: from a stream that does not throw (a std::ifstream, an AlignedInput even on a MemoryInput) a truncated scanner is loaded without exception, with whatever the memory contained as the rest of its tables, and only the stream knows; a MemoryInput does not advance by reads of 4 GB and gets out of bounds by reads of 2 GB; get() from an AlignedInput returns the same character for ever.", "quantifier": "every stream buffer that delivers given bytes, every mask of exceptions, all bytes, every contents of uninitialised memory, every point of truncation, every sequence of writes and alignments", "why_tests_cant": "all byte sequences, all points where a stream may end, all contents of the memory that is read into", "anchors": ["pire/stub/memstreams.h", "pire/stub/saveload.h", "pire/align.h: AlignedLoadArray, AlignLoad", "pire/scanner_io.cpp", "pire/scanners/multi.h: ScannerSaver"]}
{"id": "C71", "title": "The sample programs pigrep and blacklist", "statement": "pigrep prints, in order and each followed by a line break, those lines of the standard input or of the given files in which a word of the pattern occurs (with ^ and $ at the ends of the line), with the name of the file before each line if there are several files; if a file cannot be opened, it prints what the files before it contain and fails. -i, -u, -x and -e mean what the usage says. It fails without printing anything only if the automaton is too big for determinisation. blacklist -g, given any dictionary of domains, writes a file from which blacklist -u, wherever the file is mapped, passes exactly those words of its input that are addresses in one of the domains: an optional scheme, any number of labels each with a dot, a domain of the dictionary, nothing or a slash and anything.", "quantifier": "every command line, every pattern of the grammar, every contents of files, dictionaries and inputs, every platform, every address of the strings, of the scanner and of the mapped file", "why_tests_cant": "all patterns, all dictionaries, all texts; no output beyond the matching lines for any of them", "anchors": ["samples/pigrep/pigrep.cpp: main, GrepStream", "samples/blacklist/blacklist.cpp: Generate, Filter, Use", "pire/run.h: Runner", "pire/fsm.h: Surround, Append, operator+, operator|"]}
{"id": "C72", "title": "The parser does not misuse or lose memory", "statement": "While a pattern is parsed, the actions of the grammar never use a null pointer or a deleted object, never delete an object twice and always end, in whatever order tokens are read and shifted and productions are reduced (repetition counts {a,b} being ordered). At any time every object is the value of exactly one symbol on the stack or of the token read ahead, so that when parsing ends, by acceptance, by a syntax error or by an error of the lexer, everything is deleted exactly once. If the input is accepted, the result is the automaton of the pattern, whatever the order of the steps. When an action throws, however, nothing is deleted: every such pattern leaks memory.", "quantifier": "every sequence of tokens, every order of the steps of the parser, every point at which it stops, every encoding", "why_tests_cant": "all token sequences, all points of failure, all orders of reductions", "anchors": ["pire/re_parser.y: yyparse (all productions and their actions), %destructor, yylex, ConvertToFSM, AppendRange", "pire/any.h: Any"]}
{"id": "C73", "title": "The sample program validator", "statement": "The sample program validator, with the regular expression inlined into it by the tool at build time, prompts once more than it is given a word, and complains about a word exactly if it is no e-mail address: a non-empty name of small letters, digits, dots, dashes and underscores, an @, one or more non-empty labels of small letters, digits and dashes, each followed by a dot, and at least two small letters. The tool can only fail if the automaton is too big.", "quantifier": "every input, every placement of the generated string in memory, every address at which the tool allocates the scanner, every platform", "why_tests_cant": "all inputs; all memory layouts", "anchors": ["samples/inline/validator.cpp: main", "pire/inline.lpp", "pire/run.h: Runner"]}
{"id": "C74", "title": "The tables of the library and threads", "statement": "The tables of character classes, similar glyphs and code pages are made when they are first needed, the first of them by every Lexer. If the first use ends before another one begins, then from then on any number of threads may use them at the same time in any order: there is no data race, only one table is made and all get it. In any interleaving, accesses taken one at a time, nobody gets a null pointer or a table not yet made, and no more tables are made than there are threads. But if the first uses overlap, there is a data race: two tables are made, one of them is lost, and the threads get different ones.", "quantifier": "every number of threads, every number of calls by each, every interleaving of their accesses", "why_tests_cant": "all schedules of all threads; a test runs a few schedules", "anchors": ["pire/stub/singleton.h: Singleton", "pire/classes.cpp: CharClassesImpl", "pire/extra/glyphs.cpp: GlueSimilarGlyphsImpl", "pire/stub/codepage_h.h: CodePageByDocCode", "pire/re_lexer.cpp: Lexer::InstallDefaultFeatures"]}
{"id": "C75", "title": "Any has values, not pointers", "statement": "Variables of type Any behave like independent values of any type: copying, assigning (also to itself), swapping and writing through As<T>() change only what they name; Empty(), IsA<T>() and As<T>() tell what has been put in, As<T>() throws exactly if there is nothing or something of another type. If memory runs out, the operation throws and changes nothing. Nothing is deleted twice or used afterwards, and when all variables are gone no memory is left.", "quantifier": "every program of declarations, copies, assignments, swaps, accesses and ends of scope, every point at which memory runs out", "why_tests_cant": "all programs and all points of failure", "anchors": ["pire/any.h: Any, Any::operator=, Any::As, Any::IsA, Any::Swap"]}
{"id": "C76", "title": "Mapped files are not lost and not closed twice", "statement": "FileMmap, with which the sample blacklist and the tools map a file: whichever of its system calls fails, it throws and leaves the process with the descriptors and mappings it had before; if none fails, Begin() and End() are the ends of a mapping of the whole file, and the destructor gives everything back exactly once. Exceptions: an empty file cannot be mapped; a file opened as descriptor 0 is never closed; and the object must not be copied, or the file is unmapped twice.", "quantifier": "every state of the process, every point at which the system fails", "why_tests_cant": "all points of failure and all answers of the system", "anchors": ["tools/common/filemap.h: FileMmap", "samples/blacklist/blacklist.cpp"]}
