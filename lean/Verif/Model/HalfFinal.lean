import Verif.Model.Multi
import Verif.Model.Approx

/-!
# `HalfFinalFsm` — pire/half_final_fsm.h, pire/half_final_fsm.cpp; `HalfFinalScanner` — pire/scanners/half_final.h

`MakeGreedyCounter` is in `Model/Greedy`. `none` = `Canonize` throws.
-/

namespace Pire
namespace HalfFinal

/-- `AllowHalfFinals`, half_final_fsm.cpp:18-36, after `Canonize`. -/
def allowHalfFinals (f : Fsm) : Bool :=
  (List.range f.size).all fun q => !f.isFinal q || f.letters.set.all fun e =>
    f.destinations q e.rep == ∅ || (elems (f.destinations q e.rep)).any f.isFinal

/-- The body of the loop over states of `MakeHalfFinal`, half_final_fsm.cpp:47-62. -/
def halfFinalState (new : Nat) (f : Fsm) (q : Nat) : Fsm :=
  if (elems (f.destinations q EndMark)).any f.isFinal then
    ((elems (f.destinations q EndMark)).foldl (fun f p => f.disconnect q p EndMark) f).connect q new EndMark
  else f

/-- `MakeHalfFinal`, half_final_fsm.cpp:38-66. -/
def makeHalfFinal (f : Fsm) : Fsm :=
  let f := f.unsparse
  let new := f.size
  let f := f.resize (new + 1)
  let f := f.connectAll (((List.range MaxChar).filter (· ≠ Epsilon)).map fun c => (new, new, c))
  let f := (List.range f.size).foldl (halfFinalState new) f
  (f.clearFinal.setFinal new true).sparse

/-- The body of the loop over states of `DisconnectFinals`, half_final_fsm.cpp:70-83; `SetTag`, pire/fsm.h:146. -/
def cutState (allowIntersects : Bool) (f : Fsm) (q : Nat) : Fsm :=
  let f := { f with tags := Function.update f.tags q (some 0) }
  if f.isFinal q then
    let f := (List.range MaxChar).foldl (fun f c => (elems (f.destinations q c)).foldl (fun f p => f.disconnect q p c) f) f
    if allowIntersects then f else f.connect q f.initial Epsilon
  else f

/-- `DisconnectFinals` before its call of `Canonize`, half_final_fsm.cpp:68-88. -/
def cutFinals (allowIntersects : Bool) (f : Fsm) : Fsm :=
  let f := f.unsparse
  let f := (List.range f.size).foldl (cutState allowIntersects) f
  let f := if allowIntersects then f.prependAnything else f
  { f.sparse with determined := false }

/-- `DisconnectFinals`, half_final_fsm.cpp:68-90. -/
def disconnectFinals (allowIntersects : Bool) (f : Fsm) : Option Fsm := (cutFinals allowIntersects f).canonize 0

/-- `MakeScanner`, half_final_fsm.cpp:8-16. -/
def makeScanner (f : Fsm) : Option Fsm :=
  (f.canonize 0).bind fun f => (f.canonize 0).bind fun f =>
    if allowHalfFinals f then disconnectFinals true f else some (makeHalfFinal f)

/-- `MakeNonGreedyCounter`, half_final_fsm.cpp:92-100. -/
def makeNonGreedyCounter (allowIntersects simplify : Bool) (f : Fsm) : Option Fsm :=
  (f.canonize 0).bind fun f => (f.prependAnything.removeDeadEnds.canonize 0).bind fun f =>
    if !allowIntersects || simplify then disconnectFinals allowIntersects f else some f

/-- `GetCount`, half_final_fsm.cpp:319-328. -/
def getCount (f : Fsm) (q : Nat) : Nat :=
  if f.isFinal q then (if (f.tags q).getD 0 ≠ 0 then (f.tags q).getD 0 else 1) else 0

/-- `GetTotalCount`, half_final_fsm.cpp:330-336. -/
def totalCount (f : Fsm) : Nat := ((List.range f.size).map (getCount f)).sum

/-- `*finalWriter++ = v`; the second component is `finalWriter - m_final`. -/
def put (P : Policy) (r : Multi × Nat) (v : Nat) : Multi × Nat := (r.1.set P (.final r.2) v, r.2 + 1)

/-- `BuildFinals`, half_final.h:210-221. -/
def buildFinals (P : Policy) (count : Nat → Nat) (s : Multi) : Multi :=
  ((List.range s.m.statesCount).foldl (fun (r : Multi × Nat) q =>
    put P ((List.replicate (count q) 0).foldl (put P) (r.1.set P (.finalIndex q) r.2, r.2)) Multi.EndIdx) (s, 0)).1

/-- `HalfFinalScanner(const HalfFinalFsm&)`, half_final.h:49-53. -/
def ofHalfFinal (P : Policy) (base : Nat) (f : Fsm) : Multi :=
  buildFinals P (getCount f) (Multi.buildScanner P f (Multi.init P base f.size f.letters (totalCount f) f.initial 1))

/-- `HalfFinalScanner(Fsm, distance)`, half_final.h:39-47. -/
def ofFsm (P : Policy) (base : Nat) (f : Fsm) (distance : Nat := 0) : Option Multi :=
  (makeScanner (f.withDistance distance)).map fun f =>
    Multi.buildScanner P f (Multi.init P base f.size f.letters f.finals.card f.initial 1)

/-- `HalfFinalScanner::State`, half_final.h:58-120: `ScannerState`, `MatchedRegexps` (the latter is a vector, ids are below its size). -/
structure State where
  st : Nat
  matched : Nat → Nat

/-- `Result`, half_final.h:91-93. -/
def State.result (s : State) (i : Nat) : Nat := s.matched i

/-- `TakeAction`, half_final.h:154-163. -/
def takeAction (P : Policy) (s : Multi) (st : State) : State :=
  if (s.scn P).final st.st then
    (s.acceptedRegexps P st.st).foldl (fun st i => { st with matched := Function.update st.matched i ((st.matched i + 1) % 2 ^ 64) }) st
  else st

/-- The scanner as run.h sees it: `Initialize` 138-143, `Next` 145-152, `TakeAction` 154-163, `Final` 124, `Dead` 128 of half_final.h. -/
def scn (P : Policy) (s : Multi) : Scn State Unit where
  initial := takeAction P s { st := s.m.initial, matched := fun _ => 0 }
  next := fun st c => ({ st with st := s.next P st.st c }, ())
  takeAction := fun st _ => takeAction P s st
  final := fun st => (s.scn P).final st.st
  dead := fun st => (s.scn P).dead st.st

/-- `AcceptedRegexps`, half_final.h:132-135 and 66-73. -/
def accepted (s : Multi) (st : State) : List Nat := (List.range s.m.regexpsCount).filter fun i => st.matched i ≠ 0

end HalfFinal
end Pire
