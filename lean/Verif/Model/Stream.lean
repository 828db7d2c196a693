import Verif.Model.Io
import Verif.Model.Simple
import Verif.Model.Slow
import Verif.Model.Count
import Verif.Model.CaptureIo
import Verif.Model.HalfFinalState

/-!
# Streams and how the scanners read from them — pire/stub/memstreams.h, pire/stub/saveload.h

The other models take a stream for a list of bytes that throws at its end. Here are the stream buffers of the library, `std::istream::read` with its flags and its
mask of exceptions, and `Load` of every scanner as the sequence of its reads. From the C++ standard library: `read` asks the stream buffer for the bytes (`sgetn`), sets `eofbit` and
`failbit` if there are fewer, and does nothing but setting `failbit` if one of them is set already; setting a flag throws if one of the flags of the mask is set then.
-/

namespace Pire
namespace Stream

open Io

/-- A stream buffer: `sgetn`, the bytes obtained and the buffer afterwards; `none`: undefined. -/
structure Source (σ : Type) where
  getn : σ → Nat → Option (Bytes × σ)

/-- A file, or any other buffer without surprises. -/
def plain : Source Bytes := ⟨fun b n => some (b.take n, b.drop n)⟩

/-- The buffer of a `MemoryInput`: all the bytes, and where `gptr` is. -/
structure Memory where
  data : Bytes
  pos : Nat

/-- A `std::streamsize` as an `int`, the argument of `gbump`. -/
def asInt (n : Nat) : Int := if n % 2 ^ 32 < 2 ^ 31 then (n % 2 ^ 32 : Nat) else (n % 2 ^ 32 : Nat) - 2 ^ 32

/-- `MemoryInputBase::StreamBuf::xsgetn`, pire/stub/memstreams.h:95-101. `none`: `gptr` gets before the beginning. -/
def memory : Source Memory := ⟨fun s n =>
  let size := min n (s.data.length - s.pos)
  if (s.pos : Int) + asInt size < 0 then none else some ((s.data.drop s.pos).take size, { s with pos := ((s.pos : Int) + asInt size).toNat })⟩

/-- `CountingStreambuf::xsgetn`, pire/stub/saveload.h:61-66; the number is `m_read`. -/
def counting {σ : Type} (S : Source σ) : Source (σ × Nat) := ⟨fun s n => (S.getn s.1 n).map fun x => (x.1, (x.2, s.2 + x.1.length))⟩

/-- `eofbit` and `failbit`; a stream without them is good (`badbit` does not occur). -/
structure Flags where
  eof : Bool
  fail : Bool

/-- No flag. -/
def Flags.good : Flags := ⟨false, false⟩

/-- What the exceptions of a stream are set to: `MemoryInput`, memstreams.h:119 (`badbit | eofbit`). -/
def memoryMask : Flags := ⟨true, false⟩

/-- Any stream if not told otherwise, an `AlignedInput` for example. -/
def noMask : Flags := ⟨false, false⟩

/-- Setting flags throws. -/
def Flags.throws (f mask : Flags) : Bool := (f.eof && mask.eof) || (f.fail && mask.fail)

/-- How something ends: a value, an exception, or undefined. -/
inductive Ended (α : Type)
  | ok (a : α)
  | throws
  | bad

/-- `std::istream::read` of `n` bytes into memory that contains `old`. The result is what the memory contains afterwards, the buffer and the flags. -/
def read {σ : Type} (S : Source σ) (mask : Flags) (s : σ × Flags) (n : Nat) (old : Bytes) : Ended (Bytes × (σ × Flags)) :=
  if s.2.eof || s.2.fail then
    let f : Flags := ⟨s.2.eof, true⟩
    if f.throws mask then .throws else .ok (old, (s.1, f))
  else
    match S.getn s.1 n with
    | none => .bad
    | some (b, t) =>
      if b.length = n then .ok (b, (t, s.2))
      else
        let f : Flags := ⟨true, true⟩
        if f.throws mask then .throws else .ok (b ++ old.drop b.length, (t, f))

/-- A sequence of reads: what `Load` does with a stream. `old` is what the memory that is read into contains. -/
inductive Loader (α : Type)
  | done (a : α)
  | fail
  | read (n : Nat) (old : Bytes) (k : Bytes → Loader α)

/-- One after another. -/
def Loader.bind {α β : Type} : Loader α → (α → Loader β) → Loader β
  | .done a, f => f a
  | .fail, _ => .fail
  | .read n old k, f => .read n old fun b => (k b).bind f

instance : Monad Loader := { pure := .done, bind := Loader.bind }

/-- On a stream. -/
def Loader.run {α σ : Type} (S : Source σ) (mask : Flags) : Loader α → σ × Flags → Ended (α × (σ × Flags))
  | .done a, s => .ok (a, s)
  | .fail, _ => .throws
  | .read n old k, s =>
    match Stream.read S mask s n old with
    | .ok (b, s) => (k b).run S mask s
    | .throws => .throws
    | .bad => .bad

/-! ### `Load`

Memory that nothing has been written to contains anything: `u i` is what the memory of the `i`-th read contains. -/

/-- The contents of `n` bytes of memory. -/
def junk (u : Nat → Nat → Fin 256) (i n : Nat) : Bytes := (List.range n).map (u i)

/-- `AlignLoad`, pire/align.h:57-64. -/
def aligned (size : Nat) : Loader Unit := if tail size = 0 then .done () else .read (tail size) (List.replicate (tail size) 0) fun _ => .done ()

/-- `ValidateHeader`, pire/scanners/common.h:112-119: the header is initialised. -/
def header (type hdrSize : Nat) : Loader Header := do
  let x ← Loader.read headerLen (Header.mk' 0 0).bytes .done
  aligned headerLen
  let h := Header.ofBytes x
  if h.valid type hdrSize then pure h else Loader.fail

/-- `AlignedLoadArray` of `n` bytes, pire/align.h:73-78. -/
def array (u : Nat → Nat → Fin 256) (i n : Nat) : Loader Bytes := do
  let x ← Loader.read n (junk u i n) .done
  aligned n
  pure x

/-- `SimpleScanner::Load`, pire/scanner_io.cpp:51-69. -/
def simple (u : Nat → Nat → Fin 256) (null : Simple) (base : Nat) : Loader Simple := do
  let _ ← header 2 Simple.localsLen
  let x ← array u 1 Simple.localsLen
  let e ← array u 2 1
  if num e ≠ 0 then pure null
  else
    let n := num (x.take 8)
    let y ← array u 3 (Simple.bufSize n % 2 ^ 64)
    pure (Simple.placeAt n (num ((x.drop 8).take 8)) base (Multi.blockMem base y))

/-- `ScannerSaver::LoadScanner` of a relocatable scanner, multi.h:575-599. -/
def reloc (u : Nat → Nat → Fin 256) (P : Policy) (null : Multi) (base : Nat) : Loader Multi := do
  let _ ← header 1 Multi.localsLen
  let x ← array u 1 Multi.localsLen
  let m := Multi.localsOfBytes x
  if m.shortcuttingSignature ≠ P.shortSignature then Loader.fail
  else
    let e ← array u 2 1
    if num e ≠ 0 then pure null
    else
      let blk ← array u 3 (Multi.bufSize P m % 2 ^ 64)
      let s : Multi := { m := m, base := base, mem := Multi.blockMem base blk, empty := false }
      pure { s with m := m.withInitial ((m.initial + s.trans) % 2 ^ 64) }

/-- `Scanner::Load`, multi.h:575-599 and 610-616. -/
def multi (u : Nat → Nat → Fin 256) (P : Policy) (null rnull : Multi) (tmp base : Nat) : Loader Multi :=
  match P.reloc with
  | .relocatable => reloc u P null base
  | .nonrelocatable => do
    let s ← reloc u P.toReloc rnull tmp
    pure (Multi.convert P P.toReloc null base s)

/-- The numbers of `k` bytes in an array. -/
def numbers (k : Nat) : Nat → Bytes → List Nat
  | 0, _ => []
  | n + 1, b => num (b.take k) :: numbers k n (b.drop k)

/-- Vectors of 4-byte numbers, pire/scanner_io.cpp:151-156, 160-165: nothing is read for an empty one. The elements are zero before (`resize`). -/
def vectors : List Nat → Loader (List (List Nat))
  | [] => pure []
  | n :: ns => do
    let x ← if n = 0 then pure [] else Loader.read (n * 4) (List.replicate (n * 4) 0) .done
    let y ← vectors ns
    pure (numbers 4 n x :: y)

/-- The positions, pire/scanner_io.cpp:136-148: each is read by itself into a new variable. -/
def positions (u : Nat → Nat → Fin 256) : Nat → Loader (List Nat)
  | 0 => pure []
  | n + 1 => do
    let x ← Loader.read 8 (junk u (5 + n) 8) .done
    let y ← positions u n
    pure (num x :: y)

/-- `SlowScanner::Load`, pire/scanner_io.cpp:112-158 and 170, without the actions; line 149 reads nothing, since the number of bytes is a multiple of 8. -/
def slow (u : Nat → Nat → Fin 256) (null : Slow) : Loader Slow := do
  let _ ← header 3 Slow.localsLen
  let m ← array u 1 Slow.localsLen
  let e ← array u 2 1
  if num e ≠ 0 then pure null.aliased
  else
    let n := num (m.take 8)
    let k := num ((m.drop 8).take 8)
    let ls ← array u 3 (MaxChar * 8)
    let fs ← array u 4 n
    let ps ← positions u (k * n % 2 ^ 64 + 1)
    let vs ← vectors (Slow.sizesOf ps)
    aligned (4 * vs.flatten.length)
    pure { statesCount := n, lettersCount := k, start := num ((m.drop 16).take 8), finals := (numbers 1 n fs).map (· != 0), letters := numbers 8 MaxChar ls,
           vec := vs, jumps := .vecs vs, empty := false }

/-- `SlowScanner::Load` with actions, pire/scanner_io.cpp:112-170. -/
def slowCap (u : Nat → Nat → Fin 256) (self : Capture.SlowCap) : Loader Capture.SlowCap := do
  let s ← slow u Slow.null
  if s.empty then pure { base := s, needActions := false, actionsVec := [], actions := none }
  else if self.needActions then
    let vs ← vectors (s.vec.map List.length)
    aligned (4 * vs.flatten.length)
    pure { base := s, needActions := true, actionsVec := vs, actions := none }
  else pure { base := s, needActions := false, actionsVec := [], actions := none }

/-- `LoadedScanner::Load`, pire/scanner_io.cpp:195-215; the actions of the old version are zero before. -/
def loaded (u : Nat → Nat → Fin 256) (base : Nat) : Loader (Loaded × Nat) := do
  let h ← header 4 Loaded.localsLen
  let x ← array u 1 Loaded.localsLen
  let n := num (x.take 4)
  let l := num ((x.drop 4).take 4)
  let r := num ((x.drop 8).take 4)
  let i := num ((x.drop 16).take 8)
  let ls ← array u 2 MaxChar
  let js ← array u 3 (8 * (n * l % 2 ^ 32))
  if h.version = 6 then
    let _ ← array (fun _ _ => 0) 0 (4 * (n * l % 2 ^ 32))
  let ts ← array u 4 n
  pure (Loaded.markup n l r ((i + base + MaxChar) % 2 ^ 64) base (Multi.blockMem base (ls ++ js ++ ts)), h.type)

/-- `NoGlueLimitCountingScanner::Load`, pire/extra/count.cpp:1020-1040. -/
def noLimit (u : Nat → Nat → Fin 256) (self : Count.NoLimit) (base : Nat) : Loader Count.NoLimit := do
  let r ← loaded u base
  if r.2 = 5 then
    let x ← Loader.read 4 (junk u 5 4) .done
    let n := num x
    if n = 0 then pure { self with base := r.1, actions := none }
    else
      let y ← Loader.read (4 * (n - 1)) (junk u 6 (4 * (n - 1))) .done
      pure { self with base := r.1, actions := some (n :: Count.words (n - 1) y) }
  else pure { self with base := r.1, compat := true }

/-- `HalfFinalScanner::State::Load`, pire/scanners/half_final.h:104-112. (`ypair` initialises its members with zero.) -/
def halfFinalState : Loader HalfFinal.Stored := do
  let _ ← header 5 8
  let x ← Loader.read 16 (List.replicate 16 0) .done
  aligned 16
  pure ⟨{ st := num (x.take 8), matched := fun _ => 0 }, num (x.drop 8)⟩

/-! ### `AlignedOutput` and `AlignedInput` -/

/-- How much `Align(divisor)` reads or writes when `count` bytes have been, pire/stub/saveload.h:101-109 and 125-133, computed in `size_t`. -/
def padding (divisor count : Nat) : Nat :=
  let r := count &&& ((divisor + (2 ^ 64 - 1)) % 2 ^ 64)
  if r ≠ 0 then (divisor + (2 ^ 64 - r)) % 2 ^ 64 else 0

/-- What a user does with an `AlignedOutput`: writes some bytes, or aligns. -/
inductive Written
  | bytes (b : Bytes)
  | align (divisor : Nat)

/-- `AlignedOutput` on a `BufferOutput`, pire/stub/saveload.h:115-137, pire/stub/memstreams.h:46-85: `m_written` is the length of what has been written; `Align` writes the
byte `0xCC` as often as needed. -/
def write : List Written → Bytes → Bytes
  | [], out => out
  | .bytes b :: ws, out => write ws (out ++ b)
  | .align d :: ws, out => write ws (out ++ List.replicate (padding d out.length) 204)

/-- `AlignedInput` on another stream: `read` for each piece, `Align` for each alignment, pire/stub/saveload.h:91-113. The results are what the pieces are read as. -/
def readBack {σ : Type} (S : Source σ) : List Written → (σ × Nat) × Flags → Ended (List Bytes × ((σ × Nat) × Flags))
  | [], s => .ok ([], s)
  | .bytes b :: ws, s =>
    match Stream.read (counting S) noMask s b.length (List.replicate b.length 0) with
    | .ok (x, s) =>
      match readBack S ws s with
      | .ok (xs, s) => .ok (x :: xs, s)
      | .throws => .throws
      | .bad => .bad
    | .throws => .throws
    | .bad => .bad
  | .align d :: ws, s =>
    let n := padding d s.1.2
    if n = 0 then readBack S ws s
    else
      match Stream.read (counting S) noMask s n (List.replicate n 0) with
      | .ok (_, s) => readBack S ws s
      | .throws => .throws
      | .bad => .bad

/-- `sbumpc` of a `CountingStreambuf`, pire/stub/saveload.h:50-59: the get area, if there is one, holds one character; if it is empty `underflow` fills it with what
`sgetc` of the other buffer returns, which does not take it from there. `none`: the end. The state: the other buffer's contents, the get area. -/
def bump (s : Bytes × Option (Fin 256)) : Option (Fin 256 × (Bytes × Option (Fin 256))) :=
  match s.2 with
  | some c => some (c, (s.1, none))
  | none => s.1.head?.map fun c => (c, (s.1, none))

/-- `get()` several times. -/
def getMany : Nat → Bytes × Option (Fin 256) → Option (List (Fin 256))
  | 0, _ => some []
  | n + 1, s => (bump s).bind fun x => (getMany n x.2).map (x.1 :: ·)

end Stream
end Pire
