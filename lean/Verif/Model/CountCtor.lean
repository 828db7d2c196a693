import Verif.Model.Count
import Verif.Model.Capture

/-!
# The constructor of `CountingScanner` — pire/extra/count.cpp:739-834
-/

namespace Pire

/-- `SetTag`, pire/fsm.h:146. -/
def Fsm.setTag (f : Fsm) (q v : Nat) : Fsm := { f with tags := Function.update f.tags q (some v) }

/-- `Tag`, pire/fsm.h:145. -/
def Fsm.tag (f : Fsm) (q : Nat) : Nat := (f.tags q).getD 0

namespace Count

/-- `FsmForDot`, pire/extra/count.cpp:740. -/
def forDot : Fsm := Fsm.init.appendDot

/-- `FsmForChar`, pire/extra/count.cpp:741. -/
def forChar (c : Nat) : Fsm := Fsm.init.appendChar c

/-- `(sep & ~res) + re`, pire/extra/count.cpp:746-748; `none` = `Error` is thrown (from `Complement`). -/
def sepRe (re sep : Fsm) : Option Fsm := do
  let x ← re.surround.complement
  let y ← sep.inter x
  return y.concat re

/-- Lines 751-753: a copy whose states are all marked `Matched` (2). -/
def tagAll (f : Fsm) : Fsm := (List.range f.size).foldl (fun g q => g.setTag q 2) f

/-- Lines 751-758: the marked copy is imported, every final state is connected with its copy. (The loop does not change the set it runs over.) -/
def addCopy (f : Fsm) : Fsm :=
  (elems f.finals).foldl (fun g q => if q < f.size then g.connect q (f.size + q) Epsilon else g) (f.import_ (tagAll f))

/-- Line 760: `FsmForDot() | FsmForChar(BeginMark) | FsmForChar(EndMark)`. -/
@[irreducible] def anyChar : Fsm := (forDot.union (forChar BeginMark)).union (forChar EndMark)

/-- Lines 749-764, given what `sepRe` returns: the automaton of which a Cartesian square is made. The results of `Determine` are not looked at
by the code; if one of them fails, the rest of the constructor dereferences `begin()` of an empty set. This model is of use only when both succeed
(`CtorOk`). -/
def mainFsm (f : Fsm) : Fsm := ((addCopy f.determine.1).union anyChar).determine.1.unsparse

/-- Lines 791-816: the pair of states after a letter and the output. -/
def pairStep (f : Fsm) (s : Nat × Nat) (c : Nat) : (Nat × Nat) × Nat :=
  let m := (elems (f.destinations s.1 c)).headD 0
  let b := (elems (f.destinations s.2 c)).headD 0
  let outputs := if m ∈ f.deadStates then 1 ||| (f.tag m &&& 2) else 0
  let m := if m ∈ f.deadStates then b else m
  let b := if f.isFinal m || (f.isFinal b && f.tag m &&& 2 == 0) then f.initial else b
  ((m, b), outputs)

/-- The discovery of pairs, lines 772-776 and 808-815. As the comment at line 778 says, the loop is that of a determination task; there are no more
pairs of states than `size * size`, hence the task does not fail. -/
def pairTask (f : Fsm) : DTask (Nat × Nat) where
  letters := f.letters
  initial := (f.initial, f.initial)
  next := fun s c => (pairStep f s c).1
  required := fun _ => true

/-- Lines 817-820: transitions and the output of one pair on one class of letters. -/
def connectPair (f : Fsm) (states : List (Nat × Nat)) (x : (Nat × Nat) × Nat) (sq : Fsm) (e : PClass) : Fsm :=
  let r := pairStep f x.1 e.rep
  let sq := e.members.foldl (fun sq c => sq.connect x.2 (states.idxOf r.1) c) sq
  if r.2 ≠ 0 then Capture.setOutput sq x.2 (states.idxOf r.1) r.2 else sq

/-- The body of the outer loop, lines 779-821, as far as `sq` is concerned. -/
def fillPair (f : Fsm) (states : List (Nat × Nat)) (sq : Fsm) (x : (Nat × Nat) × Nat) : Fsm :=
  let sq := if f.tag x.1.1 ≠ 0 then sq.setTag x.2 (f.tag x.1.1) else sq
  let sq := sq.setFinal x.2 (f.isFinal x.1.1)
  f.letters.set.foldl (connectPair f states x) sq

/-- The square, lines 768-822. Since `sq` is only written in the loop, the pairs are found first (`pairTask`) and `sq`, of the final
size, is written in the order of the loop afterwards. -/
def square (f : Fsm) : Fsm :=
  match (pairTask f).run (f.size * f.size) with
  | none => Fsm.init
  | some (states, _) => states.zipIdx.foldl (fillPair f states) (Fsm.init.resize states.length)

/-- The automaton the scanner is built from, lines 745-824. -/
def countFsm (re sep : Fsm) : Option Fsm := (sepRe re sep).map fun f => (square (mainFsm f)).determine.1

/-- `CountingScanner(re, sep)`, pire/extra/count.cpp:744-834; the memory of the scanner is at `base`. `none` = `Error` is thrown. -/
def ctor (base : Nat) (re sep : Fsm) : Option Loaded := (countFsm re sep).map (Loaded.compileCanonized 0 1 remapBasic base)

/-- All the three calls of `Determine` succeed (lines 749, 763 and 824). -/
def CtorOk (re sep : Fsm) : Prop :=
  ∃ f, sepRe re sep = some f ∧ f.determine.2 = true ∧ ((addCopy f.determine.1).union anyChar).determine.2 = true ∧ (square (mainFsm f)).determine.2 = true

end Count
end Pire
