import Verif.Model.Parser
import Verif.Model.Slow
import Verif.Model.RunMulti
import Verif.Model.MultiCopy
import Verif.Spec.Running

/-!
# The easy interface — pire/easy.h
-/

namespace Pire.Easy

open Pire.Lex Pire.Parse Pire.Enc Pire.Scn Pire.Spec

/-- The options `UTF8`, `LATIN1`, `I`, `ANDNOT`; pire/easy.h:131-135, pire/easy.cpp:27-31. -/
inductive Opt
  | utf8
  | latin1
  | i
  | andNot
deriving DecidableEq, Repr

/-- `Options`, pire/easy.h:61-104: the options joined with `|`, in order. -/
abbrev Opts := List Opt

/-- `Options::Encoding`, pire/easy.h:63, 66, 94: the last one given, Latin-1 by default. -/
def Opts.encoding (l : Opts) : Encoding :=
  l.foldl (fun e o => match o with | .utf8 => .utf8 | .latin1 => .latin1 | _ => e) .latin1

/-- The features collected by `Options::Add`, pire/easy.h:67. -/
def Opts.added (l : Opts) : List Feature :=
  l.filterMap fun o => match o with | .i => some .caseInsensitive | .andNot => some .andNot | _ => none

/-- `Options::Apply`, pire/easy.h:81-89, on a fresh lexer. -/
def Opts.features (l : Opts) : List Feature := l.added.foldl (fun F f => addFeature f F) defaultFeatures

/-- The loop over the targets of the epsilon transitions in `BeginsWithCircumflex`, pire/easy.h:228-233. -/
def visit (s : List Nat × Finset Nat) (i : Nat) : List Nat × Finset Nat :=
  if i ∈ s.2 then s else (s.1 ++ [i], insert i s.2)

/-- The main loop of `BeginsWithCircumflex`, pire/easy.h:226-242. Its argument `handled` is a `BitSet`, here a finite set. `fuel` bounds
the number of iterations; `none` = it is exhausted (`C45_circumflex_ends` shows that this does not happen). -/
def circumflexLoop (f : Fsm) : Nat → List Nat → Finset Nat → Option Bool
  | _, [], _ => some true
  | 0, _ :: _, _ => none
  | n + 1, q :: queue, handled =>
    let s := (elems (f.destinations q Epsilon)).foldl visit (queue, handled)
    if (f.outgoingLetters q).filter (fun c => c ≠ Epsilon ∧ c ≠ BeginMark) ≠ [] then some false
    else circumflexLoop f n s.1 s.2

/-- `BeginsWithCircumflex`, pire/easy.h:217-245. -/
def beginsWithCircumflex (f : Fsm) : Option Bool := circumflexLoop f f.size [f.initial] {f.initial}

/-- `Regexp`, pire/easy.h:184-185 (built from a scanner, 152-153). `scanner = none` is a default-constructed `Scanner`. -/
structure Regexp where
  scanner : Option Multi
  slow : Slow

/-- The automaton `Init` makes of the parsed pattern, pire/easy.h:207-209. -/
def surrounded (f : Fsm) : Option Fsm := do
  let b ← beginsWithCircumflex f
  let f := if !b then f.prependAnything else f
  return f.appendAnything

/-- `Regexp::Init`, pire/easy.h:198-215; `base` is where the `Scanner` gets allocated. -/
def init (base : Nat) (opts : Opts) (raw : List Nat) : Res Regexp := do
  let pattern ← match opts.encoding.decode raw with
    | none => Res.bad
    | some none => Res.throws
    | some (some p) => Res.ok p
  let f ← parsePattern opts.features opts.encoding pattern
  let f ← match surrounded f with
    | none => Res.bad
    | some f => Res.ok f
  let d := f.determine
  if d.2 then
    match Multi.compile scannerPolicy base d.1 with
    | none => Res.throws
    | some s => Res.ok ⟨some s, Slow.null.aliased⟩
  else Res.ok ⟨none, Slow.compile d.1⟩

/-- `Runner(m_slow).Begin().Run(begin, end).End()`, pire/easy.h:160, pire/run.h:365-387 with `Run<SlowScanner>`,
pire/scanners/slow.h:436-451. -/
def slowRunner (s : Slow) (text : List Nat) : Option Bool := do
  let st ← s.next s.initState BeginMark
  let st ← s.run st text
  let st ← s.next st EndMark
  s.final st

/-- `Matches(begin, end)`, pire/easy.h:155-161; `none` = an access outside of an array. -/
def Regexp.Matches (r : Regexp) (isa : Isa) (mem : Mem) (b e : Nat) : Option Bool :=
  match r.scanner with
  | some s =>
    if !s.empty then some ((s.scn scannerPolicy).runnerBeginEndMulti isa (s.exitMasks scannerPolicy) mem b e)
    else slowRunner r.slow (bytesAt mem b (e - b))
  | none => slowRunner r.slow (bytesAt mem b (e - b))

/-! ### Made of scanners, copied, moved -/

/-- `Regexp(Scanner sc)`, pire/easy.h:152: `sc` is a copy of the argument (allocated at `b1`), `m_scanner` a copy of `sc` (at `b2`); `own` tells whether the
argument has a block of its own (multi.h:196-206). `m_slow` is default-constructed. -/
def ofScanner (own : Bool) (b1 b2 : Nat) (s : Multi) : Regexp :=
  ⟨some (Multi.copyCtor scannerPolicy own b2 (Multi.copyCtor scannerPolicy own b1 s)), Slow.null.aliased⟩

/-- `Regexp(SlowScanner ssc)`, pire/easy.h:153: copied into `ssc` (unless the argument is a temporary) and from there into `m_slow`. -/
def ofSlow (temporary : Bool) (s : Slow) : Regexp := ⟨none, (if temporary then s else s.copyCtor).copyCtor⟩

/-- The implicit copy constructor, pire/easy.h:138-185; implicit assignment leaves the same in the target (both scanners copy and swap, multi.h:239,
slow.h:285). `own`: `m_scanner` of the source has a block of its own. -/
def Regexp.copy (own : Bool) (base : Nat) (r : Regexp) : Regexp := ⟨r.scanner.map (Multi.copyCtor scannerPolicy own base), r.slow.copyCtor⟩

/-- The implicit move constructor: `Scanner` has one (multi.h:208-212) and leaves an empty scanner behind, `SlowScanner` is copied. The new object and
what the old one has become. -/
def Regexp.move (r : Regexp) : Regexp × Regexp := (⟨r.scanner, r.slow.copyCtor⟩, ⟨none, r.slow⟩)

end Pire.Easy
