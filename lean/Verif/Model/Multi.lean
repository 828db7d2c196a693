import Verif.Model.Memory
import Verif.Model.RunMulti
import Verif.Model.Minimize
import Verif.Model.Dead

/-!
# `Pire::Impl::Scanner<Relocation, Shortcutting>` — pire/scanners/multi.h, compiled from an `Fsm` (pire/fsm.h:251-280)

A scanner owns one block of memory at address `base`, laid out by `Markup` (multi.h:381-389):

    letters      264 x ui16
    final        finalTableSize x size_t
    finalIndex   statesCount x size_t
    transitions  statesCount rows of RowSize() transitions; a row starts with the header (exit masks, flags)

`Cell` names the typed objects in it, `Multi.addr` is the pointer arithmetic of the code; all reads and writes go through
byte addresses (`readLE`, `writeLE`).  States are addresses of rows.  `sizeof(size_t) = sizeof(void*) = 8`.
Simplified: the block is allocated 8-aligned (so `AlignUp(m_buffer.get(), 8)` is `m_buffer.get()`), memory outside of the
block reads as 0.
-/

namespace Pire

/-- The relocation strategies, multi.h:54-81. -/
inductive Reloc
  | relocatable
  | nonrelocatable
deriving DecidableEq

namespace Reloc

/-- `sizeof(Transition)`, multi.h:61 and 73. -/
def tsz : Reloc → Nat
  | relocatable => 4
  | nonrelocatable => 8

/-- `Signature`, multi.h:56 and 72. -/
def signature : Reloc → Nat
  | relocatable => 1
  | nonrelocatable => 2

/-- `SignExtend` of a 32-bit value to 64 bits, multi.h:46. -/
def signExtend (v : Nat) : Nat := if v < 2 ^ 31 then v else v + (2 ^ 64 - 2 ^ 32)

/-- `Go`, multi.h:65 and 79. -/
def go : Reloc → Nat → Nat → Nat
  | relocatable, state, shift => (state + signExtend shift) % 2 ^ 64
  | nonrelocatable, _, shift => shift

/-- `Diff`, multi.h:66 and 80. -/
def diff : Reloc → Nat → Nat → Nat
  | relocatable, fr, dest => (dest + 2 ^ 64 - fr) % 2 ^ 64 % 2 ^ 32
  | nonrelocatable, _, dest => dest

end Reloc

/-- Template arguments: relocation strategy and `Shortcutting::ExitMaskCount` (0 for `NoShortcuts`, multi.h:827; `n` for
`ExitMasks<n>`, line 700). -/
structure Policy where
  reloc : Reloc
  masks : Nat
deriving DecidableEq

/-- `Pire::Scanner`, multi.h:1115. -/
def scannerPolicy : Policy := ⟨.relocatable, 2⟩
/-- `Pire::ScannerNoMask`, multi.h:1116. -/
def scannerNoMaskPolicy : Policy := ⟨.relocatable, 0⟩
/-- `Pire::NonrelocScanner`, multi.h:1122. -/
def nonrelocPolicy : Policy := ⟨.nonrelocatable, 2⟩
/-- `Pire::NonrelocScannerNoMask`, multi.h:1123. -/
def nonrelocNoMaskPolicy : Policy := ⟨.nonrelocatable, 0⟩

namespace Policy

/-- `Shortcutting::Signature`, multi.h:701 and 828. -/
def shortSignature (P : Policy) : Nat := if P.masks = 0 then 0x1000 else 0x2000 + P.masks

/-- `sizeof(ScannerRowHeader)`: per mask 2 * 16 bytes (multi.h:709-713), and the flags. -/
def headerBytes (P : Policy) : Nat := 32 * P.masks + 8

/-- `HEADER_SIZE`, multi.h:349. -/
def headerSize (P : Policy) : Nat := P.headerBytes / P.reloc.tsz

end Policy

/-- `Scanner::Locals`, multi.h:315-323. -/
structure Locals where
  statesCount : Nat
  lettersCount : Nat
  regexpsCount : Nat
  initial : Nat
  finalTableSize : Nat
  relocationSignature : Nat
  shortcuttingSignature : Nat
deriving DecidableEq

/-- The typed objects of a scanner's memory block. -/
inductive Cell
  /-- `m_letters[c]` -/
  | letter (c : Nat)
  /-- `m_final[i]` -/
  | final (i : Nat)
  /-- `m_finalIndex[i]` -/
  | finalIndex (i : Nat)
  /-- `ExitMasksArray[4 * i + j]` of a row, `j < 4` -/
  | mask (row i j : Nat)
  /-- `Common.Flags` of a row -/
  | flags (row : Nat)
  /-- transition `k` of a row -/
  | slot (row k : Nat)
deriving DecidableEq

/-- The scanner object. `empty` = `m_transitions == Null().m_transitions` (multi.h:135). -/
structure Multi where
  m : Locals
  base : Nat
  mem : Mem
  empty : Bool

namespace Multi

/-- `RowSize`, multi.h:347. -/
def rowSize (P : Policy) (m : Locals) : Nat := Scn.alignUp (m.lettersCount + P.headerSize) (16 / P.reloc.tsz)

/-- Bytes per row. -/
def rowBytes (P : Policy) (m : Locals) : Nat := rowSize P m * P.reloc.tsz

/-- Offset of `m_transitions` in the block, `Markup`, multi.h:381-389. -/
def transOff (m : Locals) : Nat := MaxChar * 2 + m.finalTableSize * 8 + m.statesCount * 8

/-- `BufSize`, multi.h:297-305. -/
def bufSize (P : Policy) (m : Locals) : Nat :=
  Scn.alignUp (MaxChar * 2 + m.finalTableSize * 8 + m.statesCount * 8 + rowSize P m * m.statesCount * P.reloc.tsz) 8

/-- Offset of a cell in the block: `Markup` (multi.h:381-389), `Header` (310), `Mask` (728-732). -/
def off (P : Policy) (m : Locals) : Cell → Nat
  | .letter c => 2 * c
  | .final i => MaxChar * 2 + 8 * i
  | .finalIndex i => MaxChar * 2 + m.finalTableSize * 8 + 8 * i
  | .mask row i j => transOff m + rowBytes P m * row + 8 * (4 * i + j)
  | .flags row => transOff m + rowBytes P m * row + 32 * P.masks
  | .slot row k => transOff m + rowBytes P m * row + P.reloc.tsz * k

/-- Size of a cell. -/
def len (P : Policy) : Cell → Nat
  | .letter _ => 2
  | .slot _ _ => P.reloc.tsz
  | _ => 8

/-- Read a cell. -/
def get (P : Policy) (s : Multi) (c : Cell) : Nat := Scn.readLE s.mem (s.base + off P s.m c) (len P c)

/-- Write a cell. -/
def set (P : Policy) (s : Multi) (c : Cell) (v : Nat) : Multi :=
  { s with mem := writeLE s.mem (s.base + off P s.m c) (len P c) v }

/-- Address of `m_transitions`. -/
def trans (s : Multi) : Nat := s.base + transOff s.m

/-- `IndexToState`, multi.h:447-450. -/
def indexToState (P : Policy) (s : Multi) (i : Nat) : Nat := s.trans + rowBytes P s.m * i

/-- `StateIndex`, multi.h:281-284. -/
def stateIndex (P : Policy) (s : Multi) (st : Nat) : Nat := (st - s.trans) / rowBytes P s.m

/-- `Header::SetMask(i, val)`, multi.h:734-738. -/
def setMask (P : Policy) (s : Multi) (row i v : Nat) : Multi :=
  (List.range 4).foldl (fun s j => s.set P (.mask row i j) v) s

/-- `ScannerRowHeader()`: `NO_SHORTCUT_MASK` in all masks, flags 0; multi.h:740-744, 109. -/
def initHeader (P : Policy) (s : Multi) (row : Nat) : Multi :=
  ((List.range P.masks).foldl (fun s i => s.setMask P row i 1) s).set P (.flags row) 0

/-- The memory `Init` allocates: sizes are `ui32`, multi.h:353-366. -/
def alloc (P : Policy) (base states : Nat) (letters : Partition) (finalStatesCount regexpsCount : Nat) : Multi where
  m := {
    statesCount := states % 2 ^ 32
    lettersCount := letters.size % 2 ^ 32
    regexpsCount := regexpsCount % 2 ^ 32
    initial := 0
    finalTableSize := (finalStatesCount + states) % 2 ^ 32
    relocationSignature := P.reloc.signature
    shortcuttingSignature := P.shortSignature }
  base := base
  mem := fun _ => 0
  empty := false

/-- `Init`, multi.h:353-376. -/
def init (P : Policy) (base states : Nat) (letters : Partition) (finalStatesCount startState regexpsCount : Nat) : Multi :=
  let s := alloc P base states letters finalStatesCount regexpsCount
  let s := (List.range s.m.statesCount).foldl (fun s i => s.initHeader P i) s
  let s := { s with m := { s.m with initial := s.indexToState P startState } }
  letters.set.foldl (fun s e => e.members.foldl (fun s c => s.set P (.letter c) (e.idx + P.headerSize)) s) s

/-- `SetJump`, multi.h:452-460. -/
def setJump (P : Policy) (s : Multi) (oldState c newState : Nat) : Multi :=
  s.set P (.slot oldState (s.get P (.letter c)))
    (P.reloc.diff (s.indexToState P oldState) (s.indexToState P newState))

/-- `SetTag`, multi.h:470-474. -/
def setTag (P : Policy) (s : Multi) (state value : Nat) : Multi := s.set P (.flags state) value

/-- `for (auto&& character : letters[let]) { SetMask(header, ind, character); ++ind; }`, multi.h:499-502 (no-op for
`NoShortcuts`, line 850). -/
def setMasks (P : Policy) (s : Multi) (row : Nat) : Nat → List Nat → Multi × Nat
  | ind, [] => (s, ind)
  | ind, c :: cs =>
    setMasks P (if P.masks = 0 then s else s.setMask P row ind (fillSizeT c)) row (ind + 1) cs

/-- The loop over letter classes, multi.h:493-504; also tells whether it ran to the end. -/
def shortcutLoop (P : Policy) (chars : Nat → List Nat) (row : Nat) : List Nat → Multi → Nat → Multi × Nat × Bool
  | [], s, ind => (s, ind, true)
  | k :: ks, s, ind =>
    let st := s.indexToState P row
    if P.reloc.go st (s.get P (.slot row k)) ≠ st then
      if ind + (chars k).length > P.masks then (s, ind, false)
      else
        let r := s.setMasks P row ind (chars k)
        shortcutLoop P chars row ks r.1 r.2
    else shortcutLoop P chars row ks s ind

/-- `FinishMasks`, multi.h:788-798 (no-op for `NoShortcuts`, line 853). -/
def finishMasks (P : Policy) (s : Multi) (row ind : Nat) : Multi :=
  if P.masks = 0 then s
  else
    let ind := if ind = 0 then 1 else ind
    let last := s.get P (.mask row (ind - 1) 0)
    (List.range' ind (P.masks - ind)).foldl (fun s i => s.setMask P row i last) s

/-- The body of the loop over states, multi.h:488-513. -/
def shortcutRow (P : Policy) (chars : Nat → List Nat) (s : Multi) (row : Nat) : Multi :=
  let s := if P.masks = 0 then s else s.setMask P row 0 2
  let r := shortcutLoop P chars row (List.range' P.headerSize s.m.lettersCount) s 0
  let s := if r.2.2 then r.1 else if P.masks = 0 then r.1 else r.1.setMask P row 0 1
  s.finishMasks P row r.2.1

/-- `BuildShortcuts`, multi.h:477-514. -/
def buildShortcuts (P : Policy) (s : Multi) : Multi :=
  let chars := fun k => (List.range 256).filter fun ch => s.get P (.letter ch) == k
  (List.range s.m.statesCount).foldl (fun s row => s.shortcutRow P chars row) s

/-- `Flags & FinalFlag` etc. for the header at address `st`. -/
def flagsAt (P : Policy) (s : Multi) (st : Nat) : Nat := Scn.readLE s.mem (st + 32 * P.masks) 8

/-- `End`, multi.h:96. -/
def EndIdx : Nat := 2 ^ 64 - 1

/-- The loop of `FinishBuild`, multi.h:520-526; `w` is `finalWriter - m_final`. -/
def fillFinals (P : Policy) (s : Multi) : Multi :=
  ((List.range s.m.statesCount).foldl (fun (r : Multi × Nat) state =>
    let s := r.1.set P (.finalIndex state) r.2
    let r := if s.get P (.flags state) &&& 1 ≠ 0 then (s.set P (.final r.2) 0, r.2 + 1) else (s, r.2)
    (r.1.set P (.final r.2) EndIdx, r.2 + 1)) (s, 0)).1

/-- `FinishBuild`, multi.h:517-528. -/
def finishBuild (P : Policy) (s : Multi) : Multi := (s.fillFinals P).buildShortcuts P

/-- The tag of a state: `fsm.Tag(state)` with the final and dead flags, converted to `ui8`; pire/fsm.h:258-261. -/
def tagOf (f : Fsm) (dead : Finset Nat) (state : Nat) : Nat :=
  ((f.tags state).getD 0 ||| (if f.isFinal state then 1 else 0) ||| (if state ∈ dead then 2 else 0)) % 256

/-- `BuildScanner`, pire/fsm.h:251-271. -/
def buildScanner (P : Policy) (f : Fsm) (s : Multi) : Multi :=
  let dead := f.deadStates
  let s := (List.range f.size).foldl (fun s state => s.setTag P state (tagOf f dead state)) s
  let s := (List.range f.size).foldl (fun s fr => f.letters.set.foldl (fun s e =>
    (elems (f.destinations fr e.rep)).foldl (fun s dest => s.setJump P fr e.rep dest) s) s) s
  s.finishBuild P

/-- The constructor from an already canonized automaton, multi.h:129-130; `base` is where the block gets allocated. -/
def compileCanonized (P : Policy) (base : Nat) (f : Fsm) : Multi :=
  buildScanner P f (init P base f.size f.letters f.finals.card f.initial 1)

/-- `Scanner(Fsm&)`, multi.h:123-131 (`distance = 0`); `none` = `Canonize` throws. -/
def compile (P : Policy) (base : Nat) (f : Fsm) : Option Multi := (f.canonize 0).map (compileCanonized P base)

/-- `Next`, multi.h:163-193: `Translate`, then `NextTranslated` (reads the transition at the address of the state). -/
def next (P : Policy) (s : Multi) (st c : Nat) : Nat :=
  P.reloc.go st (Scn.readLE s.mem (st + P.reloc.tsz * s.get P (.letter c)) P.reloc.tsz)

/-- The scanner interface: `Initialize` 160, `Next` 190, `TakeAction` 195, `Final` 143, `Dead` 147. -/
def scn (P : Policy) (s : Multi) : Scn Nat Unit where
  initial := s.m.initial
  next := fun st c => (s.next P st c, ())
  takeAction := fun st _ => st
  final := fun st => s.flagsAt P st &&& 1 != 0
  dead := fun st => s.flagsAt P st &&& 2 != 0

/-- The exit masks of a state as seen by the run loop: `Header(state).Mask(0)`, `Mask(1)`; multi.h:690-696, 728-732. -/
def exitMasks (P : Policy) (s : Multi) : Masks Nat := fun st =>
  if P.masks = 0 then none else some (Scn.readLE s.mem st 8, Scn.readLE s.mem (st + 32) 8)

/-- `while (*e != End) ++e`, multi.h:153-155: the entries from position `i` of the final table; reading past the table
would give up (`fuel`). -/
def acceptedFrom (P : Policy) (s : Multi) : Nat → Nat → List Nat
  | 0, _ => []
  | fuel + 1, i => if s.get P (.final i) = EndIdx then [] else s.get P (.final i) :: acceptedFrom P s fuel (i + 1)

/-- `AcceptedRegexps`, multi.h:149-158. -/
def acceptedRegexps (P : Policy) (s : Multi) (st : Nat) : List Nat :=
  s.acceptedFrom P s.m.finalTableSize (s.get P (.finalIndex (s.stateIndex P st)))

/-- `RegexpsCount`, multi.h:139. -/
def regexpsCount (s : Multi) : Nat := if s.empty then 0 else s.m.regexpsCount

end Multi
end Pire
