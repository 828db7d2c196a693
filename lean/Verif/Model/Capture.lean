import Verif.Model.Loaded
import Verif.Model.Slow
import Verif.Model.Approx

/-!
# Capturing scanners — pire/extra/capture.h; the marks of `Features::Capture` — pire/extra/capture.cpp

Positions are `size_t` numbers, `npos` is the greatest of them.
-/

namespace Pire
namespace Capture

/-- `npos`, capture.h:65. -/
def npos : Nat := 2 ^ 64 - 1

/-- What a returned position means: `npos` is no position, capture.h:61, 191-204. -/
def opt (x : Nat) : Option Nat := if x = npos then none else some x

/-! ### `CapturingScanner` -/

/-- `CapturingScanner::State`, capture.h:59-87. -/
structure State where
  st : Nat
  beg : Nat
  fin : Nat
  counter : Nat

/-- `Captured`, capture.h:61. -/
def State.captured (s : State) : Bool := s.beg != npos && s.fin != npos

/-- `TakeAction`, capture.h:96-102: `BeginCapture = 1`, `EndCapture = 2`. -/
def takeAction (s : State) (a : Nat) : State :=
  if a &&& 1 ≠ 0 ∧ s.captured = false then { s with beg := (s.counter + 2 ^ 64 - 1) % 2 ^ 64 }
  else if a &&& 2 ≠ 0 ∧ s.captured = false then { s with fin := (s.counter + 2 ^ 64 - 1) % 2 ^ 64 }
  else s

/-- The scanner as run.h sees it: `Initialize` capture.h:89-94, `Next` 109-121, `TakeAction`, `Final` 134, `Dead` 136. -/
def scn (s : Loaded) : Scn State Nat where
  initial := { st := s.initial, beg := npos, fin := npos, counter := 0 }
  next := fun st c => ({ st with st := (s.next st.st c).1, counter := (st.counter + 1) % 2 ^ 64 }, (s.next st.st c).2)
  takeAction := takeAction
  final := fun st => s.tag (s.stateIdx st.st) &&& 1 != 0
  dead := fun _ => false

/-- `CapturingScanner(fsm, distance)`, capture.h:140-148: `FinalFlag = 1`, `DeadFlag = 0` (pire/scanners/loaded.h:69-72), `RemapAction` returns
its argument (loaded.h:200). `none` = `Canonize` throws. -/
def compile (base : Nat) (f : Fsm) (distance : Nat := 0) : Option Loaded :=
  ((f.withDistance distance).canonize 0).map (Loaded.compileCanonized 1 0 id base)

/-! ### `SlowCapturingScanner` -/

/-- `SlowCapturingScanner::SingleState`, capture.h:184-250. -/
structure Single where
  num : Nat
  beg : Nat
  fin : Nat
deriving DecidableEq

/-- `SetBegin`, capture.h:208-212. -/
def Single.setBegin (s : Single) (pos : Nat) : Single := if s.beg = npos then { s with beg := pos } else s
/-- `SetEnd`, capture.h:214-218. -/
def Single.setEnd (s : Single) (pos : Nat) : Single := if s.fin = npos then { s with fin := pos } else s
/-- The constructor, capture.h:201-206. -/
def Single.mk0 (num : Nat) : Single := { num := num, beg := npos, fin := npos }

/-- `SlowCapturingScanner::State`, capture.h:252-315; `matched` is `m_match` if `m_matched` is set. -/
structure SState where
  states : List Single
  pos : Nat
  matched : Option Single

/-- `PriorityStates`, capture.h:339-373. -/
structure Groups where
  nonGreedy : List Single
  nothing : List Single
  greedy : List Single

/-- A slow scanner with actions, compiled with `removeEpsilons = false`: pire/scanners/slow.h:252-283. Element `i` of `vec` is `m_vec[i]` zipped
with `m_actionsvec[i]`. For mapped scanners see Model/CaptureIo. -/
structure Table where
  statesCount : Nat
  lettersCount : Nat
  start : Nat
  finals : List Bool
  letters : List Nat
  vec : List (List (Nat × Nat))

/-- The constructor, capture.h:577-580 and slow.h:252-283, with `BuildScanner`, pire/fsm.h:251-271, `SetJump`, slow.h:387-397 (`unsigned`
and `ui32` are stored), `SetTag`, slow.h:402. -/
def slowCompile (f : Fsm) (distance : Nat := 0) : Table :=
  let f := (f.withDistance distance).sparse true
  let letters := Slow.letterTable f.letters
  let n := f.letters.size
  { statesCount := f.size
    lettersCount := n
    start := f.initial
    finals := (List.range f.size).map fun q => ((f.tags q).getD 0 ||| if f.isFinal q then 1 else 0) % 256 != 0
    letters := letters
    vec := (List.range f.size).foldl (fun v fr => f.letters.set.foldl (fun v e =>
      (elems (f.destinations fr e.rep)).foldl (fun v dest =>
        v.modify (fr * n + letters.getD e.rep 0) (· ++ [(dest % 2 ^ 32, f.output fr dest % 2 ^ 32)])) v) v)
      (List.replicate (f.size * n) []) }

variable (t : Table)

/-- `NextStates`, capture.h:390-405, for the letter `c` (translated here). `none` = outside of an array. -/
def Table.nextStates (q c : Nat) : Option (List (Nat × Nat)) := (t.letters[c]?).bind fun l => t.vec[q * t.lettersCount + l]?

/-- `IsFinal`, slow.h:334-337. -/
def Table.isFinal (q : Nat) : Option Bool := t.finals[q]?

/-- What a thread becomes after a transition with the given action, capture.h:426-435. -/
def advance (cur : Single) (pos : Nat) (tr : Nat × Nat) : Single :=
  let s := ((Single.mk0 tr.1).setBegin cur.beg).setEnd cur.fin
  let s := if tr.2 &&& 1 ≠ 0 ∧ cur.beg = npos then s.setBegin pos else s
  if tr.2 &&& 2 ≠ 0 ∧ cur.fin = npos then s.setEnd pos else s

/-- `InsertStates` as it is called, capture.h:407-414 and 439-448. -/
def Groups.insert (g inside : Groups) (action : Nat) : Groups :=
  if action &&& 8 ≠ 0 then { g with nonGreedy := g.nonGreedy ++ inside.nonGreedy ++ inside.nothing ++ inside.greedy }
  else if action &&& 4 = 0 then
    { nonGreedy := g.nonGreedy ++ inside.nonGreedy, nothing := g.nothing ++ inside.nothing, greedy := g.greedy ++ inside.greedy }
  else { g with greedy := g.greedy ++ inside.nonGreedy ++ inside.nothing ++ inside.greedy }

/-- `NextAndGetToGroups`, capture.h:416-450: the groups and `used`. The first argument bounds the depth of the recursion; `none` = it was not
enough, or outside of an array. -/
def Table.explore (t : Table) : Nat → Groups × (Nat → Bool) → Single → Nat → Nat → Option (Groups × (Nat → Bool))
  | 0, _, _, _, _ => none
  | fuel + 1, acc, cur, letter, pos =>
    (t.nextStates cur.num letter).bind fun trs => trs.foldlM (fun acc tr =>
      if tr.1 < t.statesCount then
        if acc.2 tr.1 then some acc
        else
          (Table.explore t fuel (⟨[], [], []⟩, Function.update acc.2 tr.1 true) (advance cur pos tr) Epsilon pos).map fun r =>
            (acc.1.insert { r.1 with nothing := r.1.nothing ++ [advance cur pos tr] } tr.2, r.2)
      else none) acc

/-- `Captured(st, matched)`, capture.h:452-484: the returned value and `matched`. -/
def Table.captured (st : Single) : Option (Bool × Bool) :=
  (t.isFinal st.num).bind fun f =>
    if f ∧ st.beg ≠ npos then some (true, true)
    else (t.nextStates st.num EndMark).bind fun trs => loop trs f
where
  /-- The loop over the transitions with the end mark. -/
  loop : List (Nat × Nat) → Bool → Option (Bool × Bool)
    | [], m => some (false, m)
    | tr :: trs, m =>
      (t.isFinal tr.1).bind fun f =>
        if f then if st.beg ≠ npos ∨ tr.2 &&& 3 ≠ 0 then some (true, true) else loop trs true
        else (t.nextStates tr.1 Epsilon).bind fun es => (inner tr es m).bind fun r => if r.1 then some r else loop trs r.2
  /-- The loop over epsilon transitions, lines 470-481. -/
  inner (tr : Nat × Nat) : List (Nat × Nat) → Bool → Option (Bool × Bool)
    | [], m => some (false, m)
    | e :: es, m =>
      (t.isFinal e.1).bind fun f =>
        if f then if st.beg ≠ npos ∨ tr.2 &&& 3 ≠ 0 then some (true, true) else inner tr es true
        else inner tr es m

/-- `UpdateNList`, capture.h:524-533, with `PushState`, 514-522, for the states in the order of their priorities. -/
def Table.pushAll : SState → List Single → Option SState
  | n, [] => some n
  | n, s :: ss =>
    (t.captured s).bind fun r =>
      if r.2 then some { n with states := n.states ++ [s], matched := some s }
      else pushAll { n with states := n.states ++ [s] } ss

/-- `UpdateNList`, capture.h:524-533. -/
def Table.update (n : SState) (g : Groups) : Option SState := t.pushAll n (g.nonGreedy ++ g.nothing ++ g.greedy)

/-- `Initialize`, capture.h:535-543; `State()`, 254-256. -/
def Table.initState : Option SState :=
  (t.explore (t.statesCount + 1) (⟨[], [], []⟩, fun _ => false) (Single.mk0 t.start) BeginMark 0).bind fun r =>
    (t.explore (t.statesCount + 1) r (Single.mk0 0) BeginMark 0).bind fun r =>
      t.update { states := [], pos := 0, matched := none } r.1

/-- The loop of `NextTranslated`, capture.h:553-559. -/
def Table.nextLoop (letter : Nat) : List Single → SState × (Nat → Bool) → Option (SState × (Nat → Bool))
  | [], acc => some acc
  | cur :: cs, acc =>
    (t.explore (t.statesCount + 1) (⟨[], [], []⟩, acc.2) cur letter acc.1.pos).bind fun r =>
      (t.update acc.1 r.1).bind fun n => nextLoop letter cs (n, r.2)

/-- `Next`, capture.h:566-569, `NextTranslated`, 545-562; `TakeAction` does nothing. -/
def Table.next (c : SState) (letter : Nat) : Option SState :=
  (t.nextLoop letter c.states ({ states := [], pos := (c.pos + 1) % 2 ^ 64, matched := c.matched }, fun _ => false)).map Prod.fst

/-- `Run` of a text without marks: one letter after another. -/
def Table.run (w : List Nat) : Option SState := t.initState.bind fun s => w.foldlM t.next s

/-- `GetCapture`, capture.h:493-512: the returned value and `final`; `none` inside = `final` is not assigned. -/
def Table.getCapture (s : SState) : Option (Bool × Option Single) := loop s.states
where
  /-- The loop. -/
  loop : List Single → Option (Bool × Option Single)
    | [] => some (match s.matched with | some m => (true, some m) | none => (false, none))
    | x :: xs => (t.captured x).bind fun r => if r.2 then some (r.1, some x) else loop xs

/-! ### The marks -/

/-- `SetOutput`, pire/fsm.h:149. -/
def setOutput (f : Fsm) (q p v : Nat) : Fsm :=
  { f with outputs := Function.update f.outputs q (some (Function.update ((f.outputs q).getD fun _ => none) p (some v))) }

/-- The loop that puts an output on the way from the final states to a new one, capture.cpp:99-104 and 117-119. -/
def markFinals (f : Fsm) (p v : Nat) : Fsm := (elems f.finals).foldl (fun g q => setOutput g q p v) f

/-- `SetIsDetermined(false)`, pire/fsm.h:195. -/
def notDetermined (f : Fsm) : Fsm := { f with determined := false }

/-- `SetCaptureMark`, capture.cpp:110-125. -/
def setCaptureMark (f : Fsm) : Fsm :=
  let n := f.size
  let g := ((f.resize (n + 2)).connect n f.initial Epsilon).connectFinal (n + 1) Epsilon
  let g := markFinals (setOutput g n g.initial 1) (n + 1) 2
  notDetermined (((g.setInitial n).clearFinal).setFinal (n + 1) true)

/-- `SetRepetitionMark`, capture.cpp:94-108. -/
def setRepetitionMark (f : Fsm) (greedy : Bool) : Fsm :=
  let n := f.size
  let g := (f.resize (n + 1)).connectFinal n Epsilon
  let g := markFinals g n (if greedy then 4 else 8)
  notDetermined (g.clearFinal.setFinal n true)

end Capture
end Pire
