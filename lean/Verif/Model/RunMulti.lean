import Verif.Model.Run

/-!
# `pire/scanners/multi.h` — running with shortcuts (`AlignedRunner` specialisation, `ExitMasks<2>`, `NoShortcuts`)
-/

namespace Pire

/-- The byte-compare of a platform: size of `Word` and `IsAnySet(CheckBytes(mask, *(Word*)p))`, where `mask` is the
`size_t` every part of the mask array is filled with. -/
structure Isa where
  wordSize : Nat
  anyByte : Nat → Mem → Nat → Bool

/-- Byte `i` (counting from the lowest) of a `size_t`. -/
def byteOf (v i : Nat) : Nat := (v >>> (8 * i)) &&& 0xFF

/-- SSE2, pire/platform.h:139-157: 16-byte words, `_mm_cmpeq_epi8` + `_mm_movemask_epi8`; the mask is the `size_t` value
twice (pire/scanners/multi.h:734-738). -/
def sse2 : Isa where
  wordSize := 16
  anyByte := fun mask mem p => (List.range 16).any fun i => (mem (p + i)).val == byteOf mask (i % 8)

/-- MMX, pire/platform.h:166-199: 8-byte words, `_mm_cmpeq_pi8`. -/
def mmx : Isa where
  wordSize := 8
  anyByte := fun mask mem p => (List.range 8).any fun i => (mem (p + i)).val == byteOf mask i

/-- `BasicInstructionSet::CheckBytes`, pire/platform.h:114-130, on 64-bit values. -/
def checkBytes (mask chunk : BitVec 64) : BitVec 64 :=
  let mc := chunk ^^^ mask
  (mc - 0x0101010101010101#64) &&& ~~~mc &&& 0x8080808080808080#64

/-- No SSE/MMX, pire/platform.h:202-212: 8-byte words. -/
def basicIsa : Isa where
  wordSize := 8
  anyByte := fun mask mem p => checkBytes (BitVec.ofNat 64 mask) (BitVec.ofNat 64 (Scn.readLE mem p 8)) != 0#64

/-- `FillSizeT`, pire/platform.h:246-253 (the loop runs for i = 8, 16, 32). -/
def fillSizeT (c : Nat) : Nat :=
  let w := c &&& 0xFF
  let w := (w <<< 8) ||| w
  let w := (w <<< 16) ||| w
  (w <<< 32) ||| w

/-- What a shortcutting policy tells about a state: the exit masks of its row header
(pire/scanners/multi.h:703-766), `ExitMaskCount = 2`; `none` for `NoShortcuts` (lines 824-878). -/
abbrev Masks (σ : Type) := σ → Option (Nat × Nat)

namespace Masks
variable {σ : Type}

/-- `NoExit`, pire/scanners/multi.h:800-805 (`NO_EXIT_MASK = 2`) and 855-861. -/
def noExit (m : Masks σ) (st : σ) : Bool := match m st with | some (a, _) => a == 2 | none => false

/-- `NoShortcut`, pire/scanners/multi.h:807-812 (`NO_SHORTCUT_MASK = 1`) and 863-869. -/
def noShortcut (m : Masks σ) (st : σ) : Bool := match m st with | some (a, _) => a == 1 | none => true

/-- `MaskChecker::Run` for two masks and `MaskCheckerBase::Check`, pire/scanners/multi.h:644-688: `true` = the word at `p`
contains none of the exit bytes. -/
def check (m : Masks σ) (isa : Isa) (mem : Mem) (st : σ) (p : Nat) : Bool :=
  match m st with
  | none => false
  | some (a, b) => if a = b then !isa.anyByte a mem p else !(isa.anyByte b mem p || isa.anyByte a mem p)

/-- `MaskCheckerBase::DoRun`, pire/scanners/multi.h:656-661 (`NoShortcuts::Run`, 871-877, stays where it is). -/
def skip (m : Masks σ) (isa : Isa) (mem : Mem) (st : σ) : Nat → Nat → Nat → Nat
  | 0, b, _ => b
  | fuel + 1, b, e => if b ≠ e && m.check isa mem st b then skip m isa mem st fuel (b + isa.wordSize) e else b

end Masks

namespace Scn
variable {σ α ρ : Type}

/-- `MultiChunk::Process`, pire/scanners/multi.h:885-908. -/
def multiChunk (sc : Scn σ α) (pred : Pred σ ρ) (mem : Mem) : Nat → Nat → σ → ρ → Res σ ρ
  | 0, _, st, acc => ⟨st, acc, false⟩
  | n + 1, p, st, acc =>
    let r := runChunk sc pred mem p 0 8 st acc
    if r.stop then r else multiChunk sc pred mem n (p + 8) r.st r.acc

/-- `for (; begin != head && begin != end; ++begin) RunChunk`, pire/scanners/multi.h:945-949; also returns `begin`. -/
def headLoop (sc : Scn σ α) (pred : Pred σ ρ) (mem : Mem) : Nat → Nat → Nat → Nat → σ → ρ → Res σ ρ × Nat
  | 0, b, _, _, st, acc => (⟨st, acc, false⟩, b)
  | fuel + 1, b, head, e, st, acc =>
    if b ≠ head && b ≠ e then
      let r := runChunk sc pred mem b 0 8 st acc
      if r.stop then (r, b) else headLoop sc pred mem fuel (b + 8) head e r.st r.acc
    else (⟨st, acc, false⟩, b)

/-- The `while (true)` loop and the loop after it, pire/scanners/multi.h:966-1000. The nested `while (noShortcut && ...)`
is folded into the outer one (same order of tests). -/
def mainLoop (isa : Isa) (m : Masks σ) (sc : Scn σ α) (pred : Pred σ ρ) (mem : Mem) (tail e : Nat) :
    Nat → Nat → Bool → σ → ρ → Res σ ρ
  | 0, _, _, st, acc => ⟨st, acc, false⟩
  | fuel + 1, head, noShortcut, st, acc =>
    if head = tail then wordLoop (fun p => runChunk sc pred mem p 0 8) (e - tail) tail e st acc
    else if noShortcut then
      let r := multiChunk sc pred mem (isa.wordSize / 8) head st acc
      if r.stop then r
      else mainLoop isa m sc pred mem tail e fuel (head + isa.wordSize) (m.noShortcut r.st) r.st r.acc
    else if m.noExit st then
      let r := pred st e acc
      ⟨st, r.1, r.2⟩
    else mainLoop isa m sc pred mem tail e fuel (m.skip isa mem st (tail - head) head tail) true st acc

/-- `AlignedRunner<Scanner<Relocation, Shortcutting>>::RunAligned`, pire/scanners/multi.h:938-1001. -/
def runAlignedMulti (isa : Isa) (m : Masks σ) (sc : Scn σ α) (pred : Pred σ ρ) (mem : Mem) (b e : Nat) (st : σ) (acc : ρ) :
    Res σ ρ :=
  let head := alignUp b isa.wordSize
  let tail := alignDown e isa.wordSize
  let (r, b) := headLoop sc pred mem (e - b) b head e st acc
  if r.stop then r
  else if b = e then r
  else if m.noExit r.st then
    let p := pred r.st e r.acc
    ⟨r.st, p.1, p.2⟩
  else mainLoop isa m sc pred mem tail e (2 * (e - b) + 2) head (m.noShortcut r.st) r.st r.acc

/-- `Run` for the multi-regexp scanner. -/
def runMulti (isa : Isa) (m : Masks σ) (sc : Scn σ α) (mem : Mem) (b e : Nat) (st : σ) : σ :=
  (doRun (runAlignedMulti isa m sc runPred mem) sc runPred mem b e st ()).1

/-- `Runner(sc).Begin().Run(begin, end).End()` as a condition, pire/run.h:365-387, for the multi-regexp scanner. -/
def runnerBeginEndMulti (isa : Isa) (m : Masks σ) (sc : Scn σ α) (mem : Mem) (b e : Nat) : Bool :=
  let st := sc.step sc.initial BeginMark
  let st := sc.runMulti isa m mem b e st
  let st := sc.step st EndMark
  sc.final st

/-- `Matches(scanner, begin, end)`, pire/run.h:396-400, for the multi-regexp scanner. -/
def matchesMulti (isa : Isa) (m : Masks σ) (sc : Scn σ α) (mem : Mem) (b e : Nat) : Bool :=
  sc.final (sc.runMulti isa m mem b e sc.initial)

/-- `LongestPrefix` for the multi-regexp scanner. -/
def longestPrefixMulti (isa : Isa) (m : Masks σ) (sc : Scn σ α) (mem : Mem) (b e : Nat) (throughBegin throughEnd : Bool) :
    Option Nat :=
  longestPrefixWith (fun pred => doRun (runAlignedMulti isa m sc pred mem) sc pred mem) sc b e throughBegin throughEnd

/-- `ShortestPrefix` for the multi-regexp scanner. -/
def shortestPrefixMulti (isa : Isa) (m : Masks σ) (sc : Scn σ α) (mem : Mem) (b e : Nat) (throughBegin throughEnd : Bool) :
    Option Nat :=
  shortestPrefixWith (fun pred => doRun (runAlignedMulti isa m sc pred mem) sc pred mem) sc b e throughBegin throughEnd

end Scn
end Pire
