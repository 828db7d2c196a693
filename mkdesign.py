import json
m={c['property']:c for c in json.load(open('/verif/MANIFEST.json'))['claims']}
props=[json.loads(l) for l in open('/verif/properties.jsonl')]
head='''# Formal model of yandex/pire in Lean 4

## Layout

* `lean/Verif/Spec/`   – small specifications (languages, texts, sets, edit distance, captures, ...). They do not mention the
  model, except `FsmLang.lean`, which says what the language of a transition table is (paths).
* `lean/Verif/Model/`  – the model of the C++ code; every definition cites the file and lines in /repo it models.
* `lean/Verif/Proofs/` – helper lemmas, invariants, inductions. Nothing here is part of a claim.
* `lean/Verif/Props/`  – the property theorems. A theorem `Cnn_...` belongs to property `Cnn`; `..._partial` proves part of the
  property. Hypotheses are shown to be satisfiable beside them (section "The hypotheses are met" of each file).
* `properties.jsonl` – the English properties; `MANIFEST.json` (made by `mkmanifest.py` from the theorem names and `notes.json`).
* `seeded/LOG.jsonl` – wrong programs the theorems were tried against.

## Trusted base

* Lean 4.33.0's kernel; Mathlib only as a library of kernel-checked definitions and lemmas.
* Axioms: `propext`, `Classical.choice`, `Quot.sound`. No axioms of our own. `decide +kernel` is used for a few closed facts
  (e.g. that a concrete automaton has at most 17 states); it is evaluated by the kernel. No compiled code is trusted.
* **The translation of the C++ into `Verif/Model` is by hand.** It is written function by function, next to citations, in the
  same order of operations; where something is simplified the comment says so.
* The specifications in `Verif/Spec` say what the English properties mean.

## Modelling conventions

* `Char` letters are numbers; `Epsilon = 257`, `BeginMark = 258`, `EndMark = 259`, `MaxChar = 264` (64-bit, little-endian
  build). A *letter* is a number below 264 other than 257; a word (`IsWord`) is a list of letters.
* `Fsm`: states are `0 .. size-1`; a transition table is a function `state → letter → Option (Finset state)` (`none` = the key is
  absent in the `std::map`, which matters for packing); `std::set` = `Finset` iterated in ascending order (`elems`); outputs and
  tags are partial functions. Loops are folds; `while` loops are well-founded or fuel-bounded with a theorem that the fuel suffices.
* Preconditions that the code assumes (indices in range, letters consistent) are invariants (`WF`, `Coh`, `ColCoh`, `AltInv`,
  collected in `Good`) which every public operation is proved to keep (C21).
* Exceptions are `none` (`Res.throws` in the lexer and parser). Undefined behaviour is never given a meaning: it is a separate
  outcome (`Outcome.bad`, `MapResult.overread`, `Res.bad`, an outer `none`), and theorems say it does not occur or when it does.
* Scanner memory is byte-exact: absolute addresses, `Mem = Nat → byte`, states are row addresses, transitions are 32-bit or
  64-bit stored displacements. Machine integers wrap (`% 2^32`, `% 2^64`) wherever the code computes with them.
* Not modelled: allocation failure, `size_t` overflow of state *counts* (an automaton would need 2^64 states), big-endian and
  32-bit builds, SSE2 intrinsics beyond the byte comparison they compute, `iostream` debugging output, threads.

## What is modelled

| code | model | remarks |
|------|-------|---------|
| `pire/partition.h` | `Model/Partition` | representatives and classes |
| `pire/fsm.h`, `pire/fsm.cpp` | `Model/Fsm`, `FsmProgram`, `Dead`, `Epsilon`, `Determine`, `Minimize` | all public operations except `DumpTo`; `Fsm::Swap` as written (it forgets `m_sparsed`) |
| `pire/determine.h`, `pire/minimize.h` | `Model/Determine`, `Minimize` | the work lists as written |
| `pire/run.h`, `pire/platform.h`, `pire/align.h` | `Model/Run`, `RunDebug`, `RunMulti`, `Align`, `Memory` | chunked and aligned loops, shortcut masks, prefixes and suffixes, `RunHelper` |
| `pire/scanners/multi.h` | `Model/Multi`, `MultiCopy`, `Memory`, `Lifetime` | all four typedefs (relocatable or not, exit masks or not), byte level |
| `pire/inline.lpp` | `Model/Inline` | from the opening parenthesis of `PIRE_REGEXP(` to the text of the literal and its size; not: finding it in the source, comments, `#line`, exit codes |
| `pire/stub/memstreams.h`, `pire/stub/saveload.h` | `Model/Stream` | `MemoryInput`, `AlignedInput`, `AlignedOutput`, `read`/`get`, flags and exceptions of `std::istream`; `BufferOutput` is an ever growing list of bytes |
| `pire/stub/singleton.h` | `Model/Singleton` | any number of threads, sequentially consistent; what the objects contain is not modelled here |
| `pire/any.h` | `Model/Any` | `unique_ptr` and `Holder`; `typeid` is equality of types |
| `tools/common/filemap.h` | `Model/FileMap` | the class for POSIX; descriptors and mappings, not the contents; not the texts of the exceptions |
| `samples/inline/validator.cpp` | `Model/Validator` | what is printed |
| `samples/pigrep/pigrep.cpp`, `samples/blacklist/blacklist.cpp` | `Model/Samples` | arguments of pigrep, what is printed; `getline` and `>>` after the C++ standard; not the parsing of the arguments of blacklist, not the texts of error messages |
| `pire/re_parser.y`, `pire/any.h` | `Model/ParserStack` | the stack, the heap, `new` and `delete`; not the tables of bison; of `Any` only which type it holds |
| `pire/glue.h`, `pire/scanners/common.h` | `Model/Glue`, `Lookup` | incl. the open-addressing state table |
| `pire/scanners/simple.h`, `slow.h`, `pair.h` | `Model/Simple`, `Slow`, `SlowLifetime`, `BitSet`, `RunMulti` | slow scanners: epsilon-free tables; with epsilons for captures |
| `pire/stub/saveload.h`, `pire/scanner_io.cpp`, `Save/Load/Mmap` | `Model/Io` and the scanner files | streams are byte lists; reading past the end throws (C70 relates them to real streams) |
| `pire/scanners/loaded.h`, `pire/extra/count.h` | `Model/Loaded`, `Count`, `Lifetime`, `CountLifetime` | tables, actions, glue, ownership |
| `pire/extra/count.cpp` | `Model/CountCtor` (739-834), `Model/AdvancedCtor` (34-737, 836-873), `Loaded`, `Count` | the three counting constructors with arguments |
| `pire/encoding.cpp`, `stub/utf8.*`, `pire/classes.cpp`, `pire/re_lexer.*`, `pire/read_unicode.cpp`, `pire/extra/glyphs.cpp` | `Model/Encoding`, `Unidata*`, `Lexer` | built-in features: character classes, ranges, and-not, case-insensitivity, glyph similarities, repetition; user-defined features are not modelled |
| `pire/re_parser.y`, the `Lexer` object | `Model/Parser`, `LexerSession` | tokens are pulled one by one and the actions run in between, as bison does (`pull`); the LALR tables made by bison are not modelled: `parse` is a deterministic shift-reduce parser of the same grammar, proved to accept exactly the token sequences spelled by parse trees of the grammar (Props/Pattern) |
| `pire/easy.h`, `pire/easy.cpp` | `Model/Easy` | |
| `pire/approx_matching.cpp` | `Model/Approx` | |
| `pire/half_final_fsm.cpp`, `scanners/half_final.h` | `Model/HalfFinal`, `Model/HalfFinalState`, `Model/Greedy` | `State::Save` is modelled as built with NDEBUG (otherwise its `Y_ASSERT(0)` aborts) |
| `pire/extra/capture.{h,cpp}` | `Model/Capture`, `Model/CaptureParse`, `Model/CaptureIo` | |

Not modelled at all: `pire/stub` apart from the files named above, `tools/bench`, `pire/defs.h` beyond constants.

'''
methods={
'C01':'path analysis of the transition table','C02':'induction over the literal','C03':'trie invariant over the middle loops','C04':'simulation; exact language in all cases','C05':'simulation for the four shapes of alternatives','C06':'path induction','C07':'C16+C18+complementation of total automata','C08':'De Morgan as in the code','C09':'induction','C10':'path induction','C11':'reversal of paths','C12':'path induction','C13':'breadth-first search invariant','C14':'in-place Warshall closure invariant','C15':'induction over appended letters','C16':'work-list invariant, subset simulation','C17':'work-list invariant for an arbitrary task','C18':'Hopcroft loop invariant','C19':'coarsest partition; Myhill-Nerode','C20':'C16+C18+C19','C21':'invariants of every operation','C22':'structural induction over expressions','C23':'table simulation at byte level','C24':'set-of-states simulation','C25':'C13 through the scanner','C26':'product work list, state numbering','C27':'invariant over histories of insertions','C28':'induction over the buffer, alignment arithmetic','C29':'masks describe letters a state ignores','C30':'append of runs','C31':'loop invariant','C32':'loop invariant','C33':'loop invariant on reversed text','C34':'product of runs','C35':'byte-exact round trip','C36':'byte-exact parse of mapped memory','C37':'displacement arithmetic','C38':'bit arithmetic, case analysis','C39':'language of the constructed automaton','C40':'stepwise evaluation of the lexer','C41':'structural induction','C42':'finite sets, table facts by the kernel','C43':'structural induction over parse trees','C44':'Unicode tables, set equations','C45':'composition of C43 and C23','C46':'alignment of edit scripts with paths','C47':'refinement of counters','C48':'fold invariants; exploration invariant; traced runs','C49':'refinement of counters; greedy = maximal non-overlapping','C50':'invariant over histories','C51':'word arithmetic','C52':'arithmetic','C53':'direct','C54':'termination measure','C55':'subset construction with tags; product simulation of two words','C57':'invariant of the counting states (where matches may begin, how many were found since), generic determinization; counterexamples on tables','C58':'lexer and parser induction as in C40/C43, with a labelling of states as before / inside / behind the group that every construction preserves; runs of the slow scanner as in C48','C59':'invariant on the order of the list of threads; closed sets of epsilon-reachable states for the operations of the parser','C60':'chains of gadgets for the items (Proofs/CaptureChain, CaptureGadget, CaptureItems); the thread of the preferred match stays in front of every thread that can still match (Proofs/CapturePrefer, CaptureTrack)','C61':'the stages of Load undo those of Save; a transition of the mapped arrays is the slice between two positions (Proofs/SlowIo, Proofs/CaptureIo)','C62':'an invariant of the common memory: blocks are disjoint, every variable has its tables in a live block, no block has two owners or none; each operation is defined and keeps it (Proofs/Lifetime), for every class that satisfies a few laws (Proofs/LifetimeKinds)','C63':'an invariant (Whole): either a non-empty valid scanner, or a slow scanner with its own tables; kept by copies and moves (C37), and it implies the answers (C29, C30, C24)','C64':'forward simulation between pointers and values: every object either owns the two arrays in its pool and points to its own vector, or owns nothing and refers to static or mapped arrays; pools are disjoint','C65':'product of the simulation of C62 (tables) and one for the action arrays: each variable owns the array it points to, or owns none and points to a mapped one or nowhere; owners are disjoint','C66':'objects in a store, operands read where the code reads them; the row loop of Import with an iterator that may leave the table; invariant: every variable holds the language of its expression; each operation on distinct places equals the operation on values','C67':'bytes of the saved state; two runs from the same scanner state keep the difference of their counters (induction over the text); C49 for the absolute counts','C68':'the lexer object as a state machine over its calls; induction over the history; for captures a mutual induction over the tree: fields that capture nothing stay as they are','C69':'reading: induction over the text against a grammar of C++ string literals (Spec/CText); automaton: C43 with C10, C11, C07; scanner: induction over the regexps with the invariant that the scanner recognises them, is reduced and storable; text: the literal is unique as C++ reads it; then C36','C70':'each Load as a sequence of reads; induction over it: a simulation between stream buffers, and between a stream and a list of bytes; the sequences equal the load functions of the other models','C71':'composition of C02, C04, C05, C10, C23, C29, C36 and C43; the language of the two fixed patterns by algebra of languages; induction over the text for lines and words','C72':'invariant: the values on the stack are distinct, are all there is on the heap, and stand for the tokens read; induction over the steps; by induction over the tree that the steps exist','C73':'composition of C36, C43, C69 and C71; the language of the pattern by algebra of languages','C74':'invariant of all interleavings: a thread that has made an object never comes to make another; witnesses of the races','C75':'refinement: every non-empty variable owns exactly one holder; induction over the program','C76':'cases of the answers of the system','C56':'simulation of the state groups by positions in the series; maximality by the greedy series; work-list and Hopcroft invariants for the tasks'}
rows='## Properties\n\n| id | property | status | method | theorems | remarks |\n|----|----------|--------|--------|----------|---------|\n'
for d in props:
    c=m.get(d['id'])
    st=c['status'] if c else 'open'
    rows+='| %s | %s | %s | %s | %d | %s |\n'%(d['id'],d['title'],st,methods.get(d['id'],''),len(c['theorems']) if c else 0,(c or {}).get('note','').replace('|','\\\\|').replace('\n',' '))
findings=open('/verif/findings.md').read()
open('/verif/DESIGN.md','w').write(head+rows+'\n'+findings)
