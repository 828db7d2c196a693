import Verif.Model.MultiCopy

/-!
# Saving, loading and mapping scanners — pire/scanners/multi.h:244-279 and 557-617, pire/scanners/common.h, pire/align.h

A stream is a list of bytes. An input stream throws at end of file, as `MemoryInput` does (pire/stub/memstreams.h:115-120);
`none` = an exception. All numbers are little-endian.
-/

namespace Pire

/-- The contents of a stream. -/
abbrev Bytes := List (Fin 256)

namespace Io

/-- The low `n` bytes of a number. -/
def le (n v : Nat) : Bytes := (List.range n).map (byteFin v)

/-- The number stored in the given bytes. -/
def num : Bytes → Nat
  | [] => 0
  | b :: bs => b.val + 256 * num bs

/-- `s->read(ptr, n)`, pire/stub/saveload.h:149-153, 166-170: the bytes read and the rest of the stream. -/
def take (n : Nat) (b : Bytes) : Option (Bytes × Bytes) := if n ≤ b.length then some (b.splitAt n) else none

/-- The number of padding bytes `AlignSave` and `AlignLoad` deal with, pire/align.h:48-64. -/
def tail (size : Nat) : Nat := Scn.alignUp size 8 - size

/-- `AlignSave`, pire/align.h:48-55. -/
def alignSave (size : Nat) : Bytes := List.replicate (tail size) 0

/-- `AlignLoad`, pire/align.h:57-64: what remains of the stream. -/
def alignLoad (size : Nat) (b : Bytes) : Option Bytes := (take (tail size) b).map (·.2)

/-- `struct Header`, pire/scanners/common.h:44-50. -/
structure Header where
  magic : Nat
  version : Nat
  ptrSize : Nat
  maxWordSize : Nat
  type : Nat
  hdrSize : Nat
deriving DecidableEq

/-- `Header(type, hdrsize)`, pire/scanners/common.h:56-63. -/
def Header.mk' (type hdrSize : Nat) : Header := ⟨0x45524950, 7, 8, 16, type, hdrSize⟩

/-- `sizeof(Header)`. -/
def headerLen : Nat := 24

/-- The bytes of a header. -/
def Header.bytes (h : Header) : Bytes :=
  le 4 h.magic ++ le 4 h.version ++ le 4 h.ptrSize ++ le 4 h.maxWordSize ++ le 4 h.type ++ le 4 h.hdrSize

/-- The header with the given bytes. -/
def Header.ofBytes (b : Bytes) : Header :=
  ⟨num (b.take 4), num ((b.drop 4).take 4), num ((b.drop 8).take 4), num ((b.drop 12).take 4), num ((b.drop 16).take 4),
    num ((b.drop 20).take 4)⟩

/-- `Validate`, pire/scanners/common.h:65-77: `false` = throws. Types: 0 `NoScanner`, 1 `Scanner`, 2 `SimpleScanner`, 3 `SlowScanner`,
4 `LoadedScanner`, 5 `NoGlueLimitCountingScanner` (lines 33-42). -/
def Header.valid (h : Header) (type hdrSize : Nat) : Bool :=
  !(h.magic ≠ 0x45524950 || h.ptrSize ≠ 8 || h.maxWordSize ≠ 16) &&
  !(h.version ≠ 7 && h.version ≠ 6) &&
  !(type ≠ 0 && type ≠ h.type && !(type == 4 && h.type == 5)) &&
  !(hdrSize ≠ 0 && h.hdrSize ≠ hdrSize)

/-- `ValidateHeader(stream)`, pire/scanners/common.h:112-119. -/
def loadHeader (type hdrSize : Nat) (b : Bytes) : Option (Header × Bytes) := do
  let (x, b) ← take headerLen b
  let b ← alignLoad headerLen b
  let h := Header.ofBytes x
  if h.valid type hdrSize then some (h, b) else none

end Io

namespace Multi
open Io

/-- `sizeof(Scanner::Locals)`, multi.h:315-323 (with padding after `regexpsCount` and `finalTableSize`). -/
def localsLen : Nat := 48

/-- The bytes of `Locals`; `pad` are the eight bytes of padding (their value is unspecified). -/
def localsBytes (m : Locals) (pad : Nat → Fin 256) : Bytes :=
  le 4 m.statesCount ++ le 4 m.lettersCount ++ le 4 m.regexpsCount ++ (List.range 4).map pad ++ le 8 m.initial ++
  le 4 m.finalTableSize ++ (List.range' 4 4).map pad ++ le 8 m.relocationSignature ++ le 8 m.shortcuttingSignature

/-- The locals with the given bytes. -/
def localsOfBytes (b : Bytes) : Locals where
  statesCount := num (b.take 4)
  lettersCount := num ((b.drop 4).take 4)
  regexpsCount := num ((b.drop 8).take 4)
  initial := num ((b.drop 16).take 8)
  finalTableSize := num ((b.drop 24).take 4)
  relocationSignature := num ((b.drop 32).take 8)
  shortcuttingSignature := num ((b.drop 40).take 8)

/-- An assignment to `m.initial`. -/
def _root_.Pire.Locals.withInitial (m : Locals) (i : Nat) : Locals := { m with initial := i }

/-- `m_buffer`: the bytes of the block. -/
def blockBytes (P : Policy) (s : Multi) : Bytes := (List.range (bufSize P s.m)).map fun i => s.mem (s.base + i)

/-- `SaveScanner` of a relocatable scanner, multi.h:558-573, when the scanner owns its memory or is empty (otherwise `m_buffer` is
null and the code crashes). `initial` is a `size_t`: the difference is taken modulo 2^64. -/
def saveReloc (P : Policy) (pad : Nat → Fin 256) (s : Multi) : Bytes :=
  let mc := s.m.withInitial ((s.m.initial + 2 ^ 64 - s.trans) % 2 ^ 64)
  (Header.mk' 1 localsLen).bytes ++ alignSave headerLen ++
  localsBytes mc pad ++ alignSave localsLen ++
  le 1 (if s.empty then 1 else 0) ++ alignSave 1 ++
  if s.empty then [] else blockBytes P s ++ alignSave (bufSize P s.m)

/-- A block with the given contents at address `base`. -/
def blockMem (base : Nat) (b : Bytes) : Mem := fun x => if base ≤ x then b.getD (x - base) 0 else 0

/-- `LoadScanner` of a relocatable scanner, multi.h:575-599. `null` is the empty scanner, `base` is where the block gets
allocated; the result is the scanner and the rest of the stream. (`BufSize` is computed in `size_t`.) -/
def loadReloc (P : Policy) (null : Multi) (base : Nat) (b : Bytes) : Option (Multi × Bytes) := do
  let (_, b) ← loadHeader 1 localsLen b
  let (x, b) ← take localsLen b
  let b ← alignLoad localsLen b
  let m := localsOfBytes x
  if m.shortcuttingSignature ≠ P.shortSignature then none
  else
    let (e, b) ← take 1 b
    let b ← alignLoad 1 b
    if num e ≠ 0 then some (null, b)
    else
      let (blk, b) ← take (bufSize P m % 2 ^ 64) b
      let b ← alignLoad (bufSize P m % 2 ^ 64) b
      let s : Multi := { m := m, base := base, mem := blockMem base blk, empty := false }
      some ({ s with m := m.withInitial ((m.initial + s.trans) % 2 ^ 64) }, b)

/-- The relocatable policy with the same shortcutting. -/
def _root_.Pire.Policy.toReloc (P : Policy) : Policy := ⟨.relocatable, P.masks⟩

/-- `Scanner::Save`, multi.h:558-573 and 604-608: a nonrelocatable scanner is converted first; `rnull` is the relocatable empty
scanner, `tmp` is where the temporary block is allocated. -/
def save (P : Policy) (pad : Nat → Fin 256) (rnull : Multi) (tmp : Nat) (s : Multi) : Bytes :=
  match P.reloc with
  | .relocatable => saveReloc P pad s
  | .nonrelocatable => saveReloc P.toReloc pad (convert P.toReloc P rnull tmp s)

/-- `Scanner::Load`, multi.h:575-599 and 610-616. -/
def load (P : Policy) (null rnull : Multi) (tmp base : Nat) (b : Bytes) : Option (Multi × Bytes) :=
  match P.reloc with
  | .relocatable => loadReloc P null base b
  | .nonrelocatable => (loadReloc P.toReloc rnull tmp b).map fun r => (convert P P.toReloc null base r.1, r.2)

/-- What `Mmap` can end with. -/
inductive MapResult
  /-- an exception -/
  | throws
  /-- a byte outside of the given range is read -/
  | overread
  /-- the scanner, and the returned pointer -/
  | ok (s : Multi) (p : Nat)

/-- `n` bytes of memory. -/
def memBytes (mem : Mem) (p n : Nat) : Bytes := (List.range n).map fun i => mem (p + i)

/-- `AlignPtr`, pire/align.h:86-96, for a `const size_t*`: pointers are compared and subtracted in units of 8 bytes, `size` counts
bytes (modulo 2^64). The new pointer and size; `none` = throws. -/
def alignPtr (p size : Nat) : Option (Nat × Nat) :=
  if p % 8 = 0 then some (p, size)
  else
    let next := Scn.alignUp p 8
    if next > (p + 8 * size) % 2 ^ 64 then none
    else some (next, (size + 2 ^ 64 - (next - p) / 8) % 2 ^ 64)

/-- `Mmap`, multi.h:244-279 (only relocatable scanners have it). `mem` is the memory of the process; nothing is copied. -/
def mmap (P : Policy) (null : Multi) (mem : Mem) (ptr size : Nat) : MapResult :=
  if ptr % 8 ≠ 0 then .throws
  else if size < headerLen then .throws
  else
    match alignPtr (ptr + headerLen) (size - headerLen) with
    | none => .throws
    | some (p, size) =>
      if !(Header.ofBytes (memBytes mem ptr headerLen)).valid 1 localsLen then .throws
      else if size < localsLen then .throws
      else
        let m := localsOfBytes (memBytes mem p localsLen)
        if m.relocationSignature ≠ P.reloc.signature then .throws
        else
          match alignPtr (p + localsLen) (size - localsLen) with
          | none => .throws
          | some (p, size) =>
            if m.shortcuttingSignature ≠ P.shortSignature then .throws
            else if size = 0 then .overread
            else
              let empty := mem p
              match alignPtr (p + 1) (size - 1) with
              | none => .throws
              | some (p, size) =>
                if empty ≠ 0 then .ok null p
                else if size < bufSize P m % 2 ^ 64 then .throws
                else
                  let s : Multi := { m := m, base := p, mem := mem, empty := false }
                  let s := { s with m := m.withInitial ((m.initial + s.trans) % 2 ^ 64) }
                  match alignPtr (p + bufSize P m % 2 ^ 64) (size - bufSize P m % 2 ^ 64) with
                  | none => .throws
                  | some (p, _) => .ok s p

end Multi
end Pire
