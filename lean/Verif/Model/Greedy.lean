import Verif.Model.HalfFinal

/-!
# `HalfFinalFsm::MakeGreedyCounter` — pire/half_final_fsm.cpp:102-317

Counters are natural numbers here; the one subtraction that might wrap is computed modulo 2^64. `MaxCountDepth` (half_final_fsm.cpp:6) is a
global variable that the user may change; it is the argument `depth` below, 10 unless changed.
-/

namespace Pire
namespace HalfFinal
namespace Greedy

/-- `StateHolder`, half_final_fsm.cpp:165-179. -/
structure Holder where
  state : Nat
  count : Nat
  reached : Bool
deriving DecidableEq, Repr

/-- `HalfFinalDetermineState`, half_final_fsm.cpp:118-224: `States`, `ToAdd`, `LastFinalCount`. Two of them are the same in the map
`InvStates` if and only if all the three are equal (`operator<`, 155-163). -/
structure DSt where
  states : List Holder
  toAdd : Nat
  last : Nat
deriving DecidableEq, Repr

/-- `!States.empty() && mFsm.IsFinal(States.back().State)`, half_final_fsm.cpp:199, 206. -/
def backFinal (f : Fsm) (s : DSt) : Bool := (s.states.getLast?.map fun h => f.isFinal h.state).getD false

/-- `AddState`, half_final_fsm.cpp:187-203. -/
def addState (f : Fsm) (s : DSt) (q count : Nat) (reached force : Bool) : DSt :=
  let fin := f.isFinal q && !reached
  let count := if fin then count + 1 else count
  let last := if fin then count else s.last
  if s.states.any fun h => h.state == q then s
  else if !backFinal f s || force then { s with states := s.states ++ [⟨q, count, reached || fin⟩], last := last }
  else s

/-- The part of `FinishBuild` behind the call of `AddState`, half_final_fsm.cpp:210-222. -/
def settle (maxCount : Nat) (s : DSt) : DSt :=
  let last := min s.last maxCount
  let hs := s.states.map fun h => { h with count := min h.count maxCount }
  let m := hs.foldl (fun m h => min h.count m) ((s.states.headD ⟨0, 0, false⟩).count)
  { states := hs.map fun h => { h with count := h.count - m }, toAdd := m, last := (last + 2 ^ 64 - m) % 2 ^ 64 }

/-- `FinishBuild`, half_final_fsm.cpp:205-223. -/
def finishBuild (f : Fsm) (s : DSt) (maxCount lastCount : Nat) : DSt :=
  let lastCount := if backFinal f s then ((s.states.getLast?.map (·.count)).getD 0) else lastCount
  settle maxCount (addState f s f.initial lastCount false true)

/-- The constructor with `initial = true`, half_final_fsm.cpp:120-128. -/
def start (f : Fsm) : DSt := finishBuild f ⟨[], 0, 0⟩ 1 0

/-- The loops of `Next`, half_final_fsm.cpp:131-136. -/
def advance (f : Fsm) (s : DSt) (c : Nat) : DSt :=
  s.states.foldl (fun n h => (elems (f.destinations h.state c)).foldl (fun n q => addState f n q h.count h.reached false) n) ⟨[], 0, s.last⟩

/-- `Next`, half_final_fsm.cpp:130-146. -/
def next (f : Fsm) (maxCount : Nat) (s : DSt) (c : Nat) : DSt :=
  let n := finishBuild f (advance f s c) maxCount ((s.states.getLast?.map (·.count)).getD 0)
  if c = EndMark then addState f ⟨[], (n.toAdd + n.last) % 2 ^ 64, 0⟩ f.initial 0 false true else n

/-- One target of a transition in the loop of the constructor of `HalfFinalDetermineTask`, half_final_fsm.cpp:243-250. -/
def redirect (n q c : Nat) (f : Fsm) (d : Nat) : Fsm :=
  let d' := if c = EndMark then d % n + n else d % n
  if d ≠ d' then (f.disconnect q d c).connect q d' c else f

/-- The body of the loop over states of the constructor of `HalfFinalDetermineTask`, half_final_fsm.cpp:240-255. -/
def redirectState (n : Nat) (f : Fsm) (q : Nat) : Fsm :=
  let f := (List.range MaxChar).foldl (fun f c => (elems (f.destinations q c)).foldl (redirect n q c) f) f
  if f.destinations q EndMark = ∅ then f.connect q (n + f.initial) EndMark else f

/-- The constructor of `HalfFinalDetermineTask`, half_final_fsm.cpp:232-258: two copies of the automaton; the end mark leads to the second
one, everything else to the first one. (`Import` does not make states of the second copy final.) -/
def doubled (f : Fsm) : Fsm :=
  let g := (f.import_ f).unsparse
  ((List.range g.size).foldl (redirectState f.size) g).sparse

/-- `HalfFinalDetermineTask`, half_final_fsm.cpp:226-304, for a doubled automaton. -/
def task (f : Fsm) (maxCount : Nat) : DTask DSt where
  letters := f.letters
  initial := start f
  next := next f maxCount
  required := fun _ => true

/-- `CopyData`, half_final_fsm.cpp:148-153. -/
def copyData (f : Fsm) (x : DSt × Nat) : Fsm := if x.1.toAdd ≠ 0 then { f.setFinal x.2 true with tags := Function.update f.tags x.2 (some x.1.toAdd) } else f

/-- `AcceptStates` and `Connect`, half_final_fsm.cpp:272-286. -/
def accept (letters : Partition) (states : List DSt) (conns : List (Nat × Nat × Nat)) : Fsm :=
  let g := Fsm.init.resize states.length
  let g := { g with initial := 0, determined := true, letters := letters, finals := ∅ }
  (states.zipIdx.foldl copyData g).connectAll conns

/-- `HalfFinalFsm::Determine`, half_final_fsm.cpp:307-317. If both attempts fail, the output of the task is an automaton as made by the
default constructor. -/
def determine (f : Fsm) (depth : Nat) : Fsm :=
  let d := doubled f
  let r := match (task d depth).run 200000 with
    | some r => some r
    | none => (task d 1).run 200000
  Fsm.swapFrom f (match r with | some r => accept d.letters r.1 r.2 | none => Fsm.init)

end Greedy

/-- `MakeGreedyCounter`, half_final_fsm.cpp:102-114. -/
def makeGreedyCounter (simplify : Bool) (f : Fsm) (depth : Nat := 10) : Option Fsm :=
  (f.canonize 0).map fun f =>
    let f := Greedy.determine f.removeDeadEnds (if simplify then 1 else depth)
    (if simplify then f.minimize else f).removeDeadEnds

end HalfFinal
end Pire
