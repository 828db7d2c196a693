import Verif.Model.Io
import Verif.Model.Lookup

/-!
# `LoadedScanner` — pire/scanners/loaded.h; its `Save` and `Load` — pire/scanner_io.cpp:172-217; gluing — pire/glue.h

The base of the counting and capturing scanners: a deterministic table with an action on every transition.  Three arrays:
`m_letters` (264 bytes), `m_jumps` (one 8-byte `Transition`, 4 bytes of shift and 4 bytes of action, per state and class of letters),
`m_tags` (a byte per state).  States are addresses of rows; shifts are differences of addresses, kept modulo 2^32 and sign-extended.
-/

namespace Pire

/-- `LoadedScanner`, loaded.h:229-242; `empty` tells whether `m_jumps` is that of the static empty scanner (line 115). -/
structure Loaded where
  statesCount : Nat
  lettersCount : Nat
  regexpsCount : Nat
  initial : Nat
  /-- `m_letters` -/
  letters : Nat
  /-- `m_jumps` -/
  jumps : Nat
  /-- `m_tags` -/
  tags : Nat
  mem : Mem
  empty : Bool

namespace Loaded

/-- `MAX_RE_COUNT`, loaded.h:74. -/
def MaxReCount : Nat := 16

/-- `StateSize`, loaded.h:177-180. -/
def stateSize (s : Loaded) : Nat := s.lettersCount * 8

/-- `BufSize`, loaded.h:213-220. -/
def bufSize (n l : Nat) : Nat := MaxChar + n * (l * 8) + n

/-- The address of `m_jumps[i]`. -/
def jumpAt (s : Loaded) (i : Nat) : Nat := s.jumps + 8 * i

/-- The state (an address) with the given number, as computed in `Init`, loaded.h:168, and `SetInitial`, line 202. -/
def indexToState (s : Loaded) (q : Nat) : Nat := s.jumpAt (q * s.lettersCount)

/-- `m_letters[c]`; also `Translate`, e.g. pire/extra/count.h:145-148. -/
def letter (s : Loaded) (c : Nat) : Nat := Scn.readLE s.mem (s.letters + c) 1

/-- `m_letters[c] = v`. -/
def setLetter (s : Loaded) (c v : Nat) : Loaded := { s with mem := writeLE s.mem (s.letters + c) 1 v }

/-- `m_tags[q]`. -/
def tag (s : Loaded) (q : Nat) : Nat := Scn.readLE s.mem (s.tags + q) 1

/-- `SetTag`, loaded.h:203. -/
def setTag (s : Loaded) (q v : Nat) : Loaded := { s with mem := writeLE s.mem (s.tags + q) 1 v }

/-- `m_jumps[i] = tr`. -/
def store (s : Loaded) (i shift action : Nat) : Loaded :=
  { s with mem := writeLE (writeLE s.mem (s.jumpAt i) 4 shift) (s.jumpAt i + 4) 4 action }

/-- `TransitionIndex`, loaded.h:182-185. -/
def transitionIndex (s : Loaded) (state c : Nat) : Nat := state * s.lettersCount + s.letter c

/-- `SetJump`, loaded.h:187-198, with `size_t` arithmetic; the shift is cut to 32 bits by the store. -/
def setJump (s : Loaded) (old c new action : Nat) : Loaded :=
  s.store (s.transitionIndex old c) ((new + 2 ^ 64 - old) % 2 ^ 64 * s.stateSize % 2 ^ 64) action

/-- `SignExtend`, loaded.h:211, as a `size_t`. -/
def signExtend (x : Nat) : Nat := if x < 2 ^ 31 then x else x + 2 ^ 64 - 2 ^ 32

/-- `NextTranslated`, pire/extra/count.h:150-155 and pire/extra/capture.h:109-116 (without the counter): the new state, the action. -/
def nextTranslated (s : Loaded) (st l : Nat) : Nat × Nat :=
  ((st + signExtend (Scn.readLE s.mem (st + 8 * l) 4)) % 2 ^ 64, Scn.readLE s.mem (st + 8 * l + 4) 4)

/-- `Next`, pire/extra/count.h:157-160 and 199-203, pire/extra/capture.h:118-121. -/
def next (s : Loaded) (st c : Nat) : Nat × Nat := s.nextTranslated st (s.letter c)

/-- `StateIdx`, loaded.h:206-209. -/
def stateIdx (s : Loaded) (st : Nat) : Nat := (st + 2 ^ 64 - s.jumps) % 2 ^ 64 / 8 / s.lettersCount

/-- `RegexpsCount`, loaded.h:117. -/
def reCount (s : Loaded) : Nat := if s.empty then 0 else s.regexpsCount

/-- `Markup`, loaded.h:267-272: the number of transitions is computed with 32 bits. -/
def markup (n l r initial base : Nat) (mem : Mem) : Loaded :=
  { statesCount := n, lettersCount := l, regexpsCount := r, initial := initial
    letters := base, jumps := base + MaxChar, tags := base + MaxChar + 8 * (n * l % 2 ^ 32), mem := mem, empty := false }

/-- `Init`, loaded.h:158-175; the block is allocated at `base`; line 171 fills 8 bytes with zeroes, as `memset` has done already. -/
def init (base n : Nat) (letters : Partition) (start regexps : Nat) : Loaded :=
  let l := letters.size % 2 ^ 32
  let s := markup (n % 2 ^ 32) l (regexps % 2 ^ 32) (base + MaxChar + 8 * (start * l)) base fun _ => 0
  letters.set.foldl (fun s e => e.members.foldl (fun s c => s.setLetter c e.idx) s) s

/-- `BuildScanner`, pire/fsm.h:251-271, for a loaded scanner with the given flags and `RemapAction`; `FinishBuild` does nothing. -/
def buildScanner (finalFlag deadFlag : Nat) (remap : Nat → Nat) (f : Fsm) (s : Loaded) : Loaded :=
  let dead := if deadFlag ≠ 0 then f.deadStates else ∅
  let s := (List.range f.size).foldl (fun s q => s.setTag q
    ((f.tags q).getD 0 ||| (if f.isFinal q then finalFlag else 0) ||| (if q ∈ dead then deadFlag else 0))) s
  (List.range f.size).foldl (fun s fr => f.letters.set.foldl (fun s e =>
    (elems (f.destinations fr e.rep)).foldl (fun s dest => s.setJump fr e.rep dest (remap (f.output fr dest) % 2 ^ 32)) s) s) s

/-- `Init` and `BuildScanner` of a canonized automaton, e.g. loaded.h:251-253, pire/extra/capture.h:147-149. -/
def compileCanonized (finalFlag deadFlag : Nat) (remap : Nat → Nat) (base : Nat) (f : Fsm) : Loaded :=
  buildScanner finalFlag deadFlag remap f (init base f.size f.letters f.initial 1)

/-- `Null`, loaded.h:261-265, and the constructor at 246-254: flags are zero, actions are not changed. -/
def null (base : Nat) : Option Loaded :=
  (Fsm.makeFalse.canonize 0).map fun f => { compileCanonized 0 0 id base f with empty := true }

/-- The copy constructor, loaded.h:79-89: `owned` = the source owns its memory, otherwise the copy uses the same memory. -/
def copyCtor (owned : Bool) (base : Nat) (s : Loaded) : Loaded :=
  if owned then
    markup s.statesCount s.lettersCount s.regexpsCount ((base + MaxChar + (s.initial + 2 ^ 64 - s.jumps)) % 2 ^ 64) base
      fun x => if base ≤ x ∧ x < base + bufSize s.statesCount s.lettersCount then s.mem (s.letters + (x - base)) else 0
  else s

/-! ### Gluing -/

/-- `LettersEquality`, pire/glue.h:35-48. -/
def lettersEq (a b : Loaded) (c d : Nat) : Bool := a.letter c == a.letter d && b.letter c == b.letter d

/-- The new letters partition, the constructor of `ScannerGlueCommon`, pire/glue.h:119-128. -/
@[irreducible] def glueLetters (a b : Loaded) : Partition :=
  ((List.range MaxChar).filter (· ≠ Epsilon)).foldl (fun p c => p.append (lettersEq a b) c) .empty

/-- `ScannerGlueCommon`: pire/glue.h:130-144. -/
def glueTask (a b : Loaded) : DTask (Nat × Nat) where
  letters := glueLetters a b
  initial := (a.initial, b.initial)
  next := fun s c => ((a.next s.1 c).1, (b.next s.2 c).1)
  required := fun _ => true

/-- `CountingScannerGlueTask::AcceptStates`, pire/extra/count.cpp:891-899; tags are bytes. -/
def acceptStates (base : Nat) (a b : Loaded) (states : List (Nat × Nat)) : Loaded :=
  states.zipIdx.foldl (fun s x => s.setTag x.2 (a.tag (a.stateIdx x.1.1) ||| b.tag (b.stateIdx x.1.2) <<< 3))
    (init base states.length (glueLetters a b) 0 (a.reCount + b.reCount))

/-- `CountingScannerGlueTask::Action`, pire/extra/count.cpp:909-915. -/
def actionAt (s : Loaded) (st c : Nat) : Nat := Scn.readLE s.mem (s.jumpAt (s.transitionIndex (s.stateIdx st) c) + 4) 4

/-! ### Saving, loading, mapping -/

open Io

/-- `sizeof(LoadedScanner::Locals)`, loaded.h:229-234 (with padding after `regexpsCount`). -/
def localsLen : Nat := 24

/-- The bytes of the locals with the given `initial`; `pad` = the padding. -/
def localsBytes (s : Loaded) (initial : Nat) (pad : Nat) : Bytes :=
  le 4 s.statesCount ++ le 4 s.lettersCount ++ le 4 s.regexpsCount ++ le 4 pad ++ le 8 initial

/-- `AlignedSaveArray` of `n` bytes at an address, pire/align.h:66-71. -/
def saveArray (mem : Mem) (p n : Nat) : Bytes := Multi.memBytes mem p n ++ alignSave n

/-- `Save(s, type)`, pire/scanner_io.cpp:176-189; the number of transitions is computed with 32 bits. -/
def save (type pad : Nat) (s : Loaded) : Bytes :=
  (Header.mk' type localsLen).bytes ++ alignSave headerLen ++
  s.localsBytes ((s.initial + 2 ^ 64 - s.jumps) % 2 ^ 64) pad ++ alignSave localsLen ++
  saveArray s.mem s.letters MaxChar ++
  saveArray s.mem s.jumps (8 * (s.statesCount * s.lettersCount % 2 ^ 32)) ++
  saveArray s.mem s.tags s.statesCount

/-- `AlignedLoadArray` of `n` bytes, pire/align.h:73-78: the bytes and the rest. -/
def loadArray (n : Nat) (b : Bytes) : Option (Bytes × Bytes) :=
  (take n b).bind fun x => (alignLoad n x.2).bind fun b => some (x.1, b)

/-- `Load(s, type)`, pire/scanner_io.cpp:195-215: the scanner, its type, the rest of the stream. The block is allocated at `base`; the
arrays are read into it one after another. -/
def load (base : Nat) (b : Bytes) : Option ((Loaded × Nat) × Bytes) :=
  (loadHeader 4 localsLen b).bind fun h => (take localsLen h.2).bind fun x => (alignLoad localsLen x.2).bind fun b =>
    let n := num (x.1.take 4)
    let l := num ((x.1.drop 4).take 4)
    let r := num ((x.1.drop 8).take 4)
    let i := num ((x.1.drop 16).take 8)
    (loadArray MaxChar b).bind fun ls => (loadArray (8 * (n * l % 2 ^ 32)) ls.2).bind fun js =>
      (if h.1.version = 6 then (loadArray (4 * (n * l % 2 ^ 32)) js.2).bind fun x => some x.2 else some js.2).bind fun b =>
        (loadArray n b).bind fun ts =>
          some ((markup n l r ((i + base + MaxChar) % 2 ^ 64) base (Multi.blockMem base (ls.1 ++ js.1 ++ ts.1)), h.1.type), ts.2)

/-- What `Mmap` can end with: an exception; the scanner, its type and the returned pointer. -/
inductive MapResult
  | throws
  | ok (s : Loaded) (type p size : Nat)

/-- `MapPtr` of `n` bytes, pire/scanners/common.h:88-96: the address of the array, the new pointer and size. -/
def mapPtr (n : Nat) (p size : Nat) : Option (Nat × Nat × Nat) :=
  if size < n then none else (Multi.alignPtr (p + n) (size - n)).map fun x => (p, x.1, x.2)

/-- `Mmap`, loaded.h:125-153. `mem` is the memory of the process; nothing is copied. -/
def mmap (mem : Mem) (ptr size : Nat) : MapResult :=
  if ptr % 8 ≠ 0 then .throws
  else
    match mapPtr headerLen ptr size with
    | none => .throws
    | some (h, p, size) =>
      let hdr := Header.ofBytes (Multi.memBytes mem h headerLen)
      if !hdr.valid 4 localsLen then .throws
      else
        match mapPtr localsLen p size with
        | none => .throws
        | some (x, p, size) =>
          let n := num (Multi.memBytes mem x 4)
          let l := num (Multi.memBytes mem (x + 4) 4)
          let r := num (Multi.memBytes mem (x + 8) 4)
          let i := num (Multi.memBytes mem (x + 16) 8)
          match mapPtr MaxChar p size with
          | none => .throws
          | some (ls, p, size) =>
            match mapPtr (8 * (n * l % 2 ^ 32)) p size with
            | none => .throws
            | some (js, p, size) =>
              match (if hdr.version = 6 then (mapPtr (4 * (n * l % 2 ^ 32)) p size).map (·.2) else some (p, size)) with
              | none => .throws
              | some (p, size) =>
                match mapPtr n p size with
                | none => .throws
                | some (ts, p, size) =>
                  .ok { statesCount := n, lettersCount := l, regexpsCount := r, initial := (i + js) % 2 ^ 64
                        letters := ls, jumps := js, tags := ts, mem := mem, empty := false } hdr.type p size

end Loaded
end Pire
