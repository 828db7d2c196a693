import Verif.Model.Basic

/-!
# `pire/run.h` — running scanners over memory

Addresses are natural numbers, memory is a function from addresses to bytes; `size_t` is 8 bytes, little-endian.
Reading a word yields the 8 bytes at its address as a number.  Pointer loops `for (; p != end; ++p)` over words get a
fuel argument (the distance); the proofs show it is never exhausted.  `PIRE_DEBUG` is off (release build).
-/

namespace Pire

/-- Byte-addressed memory. -/
abbrev Mem := Nat → Fin 256

/-- The interface of a scanner used by run.h (`Initialize`, `Next`, `TakeAction`, `Final`, `Dead`).
`Next(State&, Char) → Action` returns the new state and the action. -/
structure Scn (σ α : Type) where
  initial : σ
  next : σ → Nat → σ × α
  takeAction : σ → α → σ
  final : σ → Bool
  dead : σ → Bool

namespace Scn
variable {σ α ρ : Type}

/-- `Step`, pire/run.h:50-57. -/
def step (sc : Scn σ α) (st : σ) (ch : Nat) : σ :=
  let r := sc.next st ch
  sc.takeAction r.1 r.2

/-- A predicate object, pire/run.h:59-102: called with the state and a position, it may update the variable it holds a
reference to (`ρ`), and tells whether to stop (`true` = `Stop`). -/
abbrev Pred (σ ρ : Type) := σ → Nat → ρ → ρ × Bool

/-- `RunPred`, pire/run.h:63-67. -/
def runPred : Pred σ Unit := fun _ _ r => (r, false)

/-- `ShortestPrefixPred`, pire/run.h:69-85. `none` is the null pointer. -/
def shortestPrefixPred (sc : Scn σ α) : Pred σ (Option Nat) := fun st pos r =>
  if sc.final st then (some pos, true) else (r, sc.dead st)

/-- `LongestPrefixPred`, pire/run.h:87-100. -/
def longestPrefixPred (sc : Scn σ α) : Pred σ (Option Nat) := fun st pos r =>
  (if sc.final st then some pos else r, sc.dead st)

/-- Scanner state, the predicate's variable, and whether `Stop` was returned. -/
structure Res (σ ρ : Type) where
  st : σ
  acc : ρ
  stop : Bool

/-- The 8 (`n`) bytes at address `p` as a little-endian number: `*p` for a `const size_t* p`. -/
def readLE (mem : Mem) (p : Nat) : Nat → Nat
  | 0 => 0
  | n + 1 => (mem p).val + 256 * readLE mem (p + 1) n

/-- The loop of `SafeRunChunk`, pire/run.h:119-124; `size` iterations left, `ptr` is the current address. -/
def safeLoop (sc : Scn σ α) (pred : Pred σ ρ) (mem : Mem) : Nat → Nat → σ → ρ → Res σ ρ
  | 0, _, st, acc => ⟨st, acc, false⟩
  | size + 1, ptr, st, acc =>
    let st := sc.step st (mem ptr)
    let r := pred st (ptr + 1) acc
    if r.2 then ⟨st, r.1, true⟩ else safeLoop sc pred mem size (ptr + 1) st r.1

/-- `SafeRunChunk`, pire/run.h:108-126. -/
def safeRunChunk (sc : Scn σ α) (pred : Pred σ ρ) (mem : Mem) (p pos size : Nat) (st : σ) (acc : ρ) : Res σ ρ :=
  if size = 0 then ⟨st, acc, false⟩ else safeLoop sc pred mem size (p + pos) st acc

/-- The loop of `RunChunk`, pire/run.h:143-148; `i` iterations left. -/
def chunkLoop (sc : Scn σ α) (pred : Pred σ ρ) (ptr : Nat) : Nat → Nat → σ → ρ → Res σ ρ
  | 0, _, st, acc => ⟨st, acc, false⟩
  | i + 1, chunk, st, acc =>
    let st := sc.step st (chunk &&& 0xFF)
    let r := pred st (ptr - (i + 1)) acc
    if r.2 then ⟨st, r.1, true⟩ else chunkLoop sc pred ptr i (chunk >>> 8) st r.1

/-- `RunChunk`, pire/run.h:128-151. -/
def runChunk (sc : Scn σ α) (pred : Pred σ ρ) (mem : Mem) (p pos size : Nat) (st : σ) (acc : ρ) : Res σ ρ :=
  if size = 0 then ⟨st, acc, false⟩
  else chunkLoop sc pred (p + pos + size + 1) size (readLE mem p 8 >>> (8 * pos)) st acc

/-- `for (; begin != end && (ret = body(begin)) == Continue; ++begin)` over 8-byte words. -/
def wordLoop (body : Nat → σ → ρ → Res σ ρ) : Nat → Nat → Nat → σ → ρ → Res σ ρ
  | 0, _, _, st, acc => ⟨st, acc, false⟩
  | fuel + 1, b, e, st, acc =>
    if b = e then ⟨st, acc, false⟩
    else
      let r := body b st acc
      if r.stop then r else wordLoop body fuel (b + 8) e r.st r.acc

/-- `AlignedRunner::RunAligned` with a predicate, pire/run.h:153-167. -/
def runAligned (sc : Scn σ α) (pred : Pred σ ρ) (mem : Mem) (b e : Nat) (st : σ) (acc : ρ) : Res σ ρ :=
  wordLoop (fun p => runChunk sc pred mem p 0 8) (e - b) b e st acc

/-- The inner loop of the `RunPred` version, pire/run.h:176-179. -/
def plainChunkLoop (sc : Scn σ α) : Nat → Nat → σ → σ
  | 0, _, st => st
  | i + 1, chunk, st => plainChunkLoop sc i (chunk >>> 8) (sc.step st (chunk &&& 0xFF))

/-- `AlignedRunner::RunAligned` without a predicate, pire/run.h:169-184. -/
def runAlignedPlain (sc : Scn σ α) (mem : Mem) (b e : Nat) (st : σ) (acc : ρ) : Res σ ρ :=
  wordLoop (fun p st acc => ⟨plainChunkLoop sc 8 (readLE mem p 8) st, acc, false⟩) (e - b) b e st acc

/-- `x & ~(bound - 1)` for a power of two (see C52). -/
def alignDown (x bound : Nat) : Nat := x / bound * bound

/-- `(x + (bound - 1)) & ~(bound - 1)` for a power of two (see C52). -/
def alignUp (x bound : Nat) : Nat := (x + (bound - 1)) / bound * bound

/-- `DoRun`, pire/run.h:186-226, for a given implementation of `RunAligned`. -/
def doRun (aligned : Nat → Nat → σ → ρ → Res σ ρ) (sc : Scn σ α) (pred : Pred σ ρ) (mem : Mem) (b e : Nat)
    (st : σ) (acc : ρ) : σ × ρ :=
  let head := alignDown b 8
  let tail := alignDown e 8
  let headSize := head + 8 - b
  let tailSize := e - tail
  if head = tail then
    let r := safeRunChunk sc pred mem head (8 - headSize) (e - b) st acc
    (r.st, r.acc)
  else
    let (r, head) :=
      if b ≠ head then (runChunk sc pred mem head (8 - headSize) headSize st acc, head + 8)
      else (⟨st, acc, false⟩, head)
    if r.stop then (r.st, r.acc)
    else
      let r := aligned head tail r.st r.acc
      if r.stop then (r.st, r.acc)
      else if tailSize ≠ 0 then
        let r := safeRunChunk sc pred mem tail 0 tailSize r.st r.acc
        (r.st, r.acc)
      else (r.st, r.acc)

/-- `Run(scanner, state, begin, end)` of a scanner without specialised `AlignedRunner`, pire/run.h:271-275. -/
def run (sc : Scn σ α) (mem : Mem) (b e : Nat) (st : σ) : σ :=
  (doRun (runAlignedPlain sc mem) sc runPred mem b e st ()).1

/-- `LongestPrefix`, pire/run.h:277-292, for a given way of running. `none` is the null pointer. -/
def longestPrefixWith (doRun : Pred σ (Option Nat) → Nat → Nat → σ → Option Nat → σ × Option Nat) (sc : Scn σ α) (b e : Nat)
    (throughBegin throughEnd : Bool) : Option Nat :=
  let st := sc.initial
  let st := if throughBegin then sc.step st BeginMark else st
  let pos := if sc.final st then some b else none
  let (st, pos) := doRun (longestPrefixPred sc) b e st pos
  if throughEnd then
    let st := sc.step st EndMark
    if sc.final st then some e else pos
  else pos

/-- `ShortestPrefix`, pire/run.h:294-311. -/
def shortestPrefixWith (doRun : Pred σ (Option Nat) → Nat → Nat → σ → Option Nat → σ × Option Nat) (sc : Scn σ α) (b e : Nat)
    (throughBegin throughEnd : Bool) : Option Nat :=
  let st := sc.initial
  let st := if throughBegin then sc.step st BeginMark else st
  if sc.final st then some b
  else
    let (st, pos) := doRun (shortestPrefixPred sc) b e st none
    if throughEnd then
      let st := sc.step st EndMark
      if sc.final st && pos.isNone then some e else pos
    else pos

/-- `LongestPrefix` of a scanner without specialised `AlignedRunner`. -/
def longestPrefix (sc : Scn σ α) (mem : Mem) (b e : Nat) (throughBegin throughEnd : Bool) : Option Nat :=
  longestPrefixWith (fun pred => doRun (runAligned sc pred mem) sc pred mem) sc b e throughBegin throughEnd

/-- `ShortestPrefix` of a scanner without specialised `AlignedRunner`. -/
def shortestPrefix (sc : Scn σ α) (mem : Mem) (b e : Nat) (throughBegin throughEnd : Bool) : Option Nat :=
  shortestPrefixWith (fun pred => doRun (runAligned sc pred mem) sc pred mem) sc b e throughBegin throughEnd

/-- The loop of `LongestSuffix`, pire/run.h:327-333; `n = rbegin - rend` characters are left. (Pointers may step one
below the buffer: `rb` is the address of the next character to read plus one, so that it never becomes negative; a
returned value `r` stands for the pointer `r - 1`.) -/
def longestSuffixLoop (sc : Scn σ α) (mem : Mem) : Nat → Nat → σ → Option Nat → Nat × σ × Option Nat
  | 0, rb, st, pos => (rb, st, pos)
  | n + 1, rb, st, pos =>
    if sc.dead st then (rb, st, pos)
    else
      let pos := if sc.final st then some rb else pos
      longestSuffixLoop sc mem n (rb - 1) (sc.step st (mem (rb - 1))) pos

/-- `LongestSuffix`, pire/run.h:314-342. `rb`, `re` and the result are the code's pointers plus one (see above). -/
def longestSuffix (sc : Scn σ α) (mem : Mem) (rb re : Nat) (throughEnd throughBegin : Bool) : Option Nat :=
  let st := sc.initial
  let st := if throughEnd then sc.step st EndMark else st
  let (rb, st, pos) := longestSuffixLoop sc mem (rb - re) rb st none
  let pos := if sc.final st then some rb else pos
  if throughBegin then
    let st := sc.step st BeginMark
    if sc.final st then some rb else pos
  else pos

/-- The loop of `ShortestSuffix`, pire/run.h:355-358: `Next` is called without `TakeAction`. -/
def shortestSuffixLoop (sc : Scn σ α) (mem : Mem) : Nat → Nat → σ → Nat × σ
  | 0, rb, st => (rb, st)
  | n + 1, rb, st =>
    if sc.final st || sc.dead st then (rb, st)
    else shortestSuffixLoop sc mem n (rb - 1) (sc.next st (mem (rb - 1))).1

/-- `ShortestSuffix`, pire/run.h:344-362. -/
def shortestSuffix (sc : Scn σ α) (mem : Mem) (rb re : Nat) (throughEnd throughBegin : Bool) : Option Nat :=
  let st := sc.initial
  let st := if throughEnd then sc.step st EndMark else st
  let (rb, st) := shortestSuffixLoop sc mem (rb - re) rb st
  let st := if throughBegin then sc.step st BeginMark else st
  if sc.final st then some rb else none

/-- `ScannerPair`, pire/scanners/pair.h:33-93. -/
def pair {σ' α' : Type} (a : Scn σ α) (b : Scn σ' α') : Scn (σ × σ') (α × α') where
  initial := (a.initial, b.initial)
  next := fun s ch => (((a.next s.1 ch).1, (b.next s.2 ch).1), ((a.next s.1 ch).2, (b.next s.2 ch).2))
  takeAction := fun s x => (a.takeAction s.1 x.1, b.takeAction s.2 x.2)
  final := fun s => a.final s.1 || b.final s.2
  dead := fun s => a.dead s.1 && b.dead s.2

/-- `Run(scanner1, scanner2, ...)`, pire/run.h:230-241. -/
def run2 {σ' α' : Type} (a : Scn σ α) (b : Scn σ' α') (mem : Mem) (beg en : Nat) (s : σ) (s' : σ') : σ × σ' :=
  (pair a b).run mem beg en (s, s')

/-- `RunHelper`, pire/run.h:365-387: `Runner(sc).Begin().Run(begin, end).End()`. -/
def runnerBeginEnd (sc : Scn σ α) (mem : Mem) (b e : Nat) : Bool :=
  let st := sc.step sc.initial BeginMark
  let st := sc.run mem b e st
  let st := sc.step st EndMark
  sc.final st

/-- `Matches(scanner, begin, end)`, pire/run.h:396-400. -/
def matches_ (sc : Scn σ α) (mem : Mem) (b e : Nat) : Bool := sc.final (sc.run mem b e sc.initial)

end Scn
end Pire
