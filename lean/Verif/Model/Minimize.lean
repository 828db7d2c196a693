import Verif.Model.Determine

/-!
# Minimisation — pire/minimize.h:60-149, pire/fsm.cpp:1037-1169
-/

namespace Pire

/-- The parts of a minimisation task the generic algorithm calls back, pire/minimize.h:25-45: `Size()`,
`LettersCount()`, `Previous(state, letter)`. -/
structure MTask where
  size : Nat
  letters : Nat
  prev : Nat → Nat → List Nat

/-- Variables of `Minimize`: `StateClass` and `Classes` of the task (pire/minimize.h:53-55) and the locals
`classStates`, `classesToProcess`, `queuedClasses`, `classChange`, `removedStates`, pire/minimize.h:70-90. Vectors are
total functions; indices are in range by invariant `MInv` of Proofs/Minimize. -/
structure MState where
  cls : Nat → Nat
  classes : Nat
  cstates : Nat → List Nat
  queue : List (Nat × Nat)
  queued : Nat → Nat → Bool
  change : Nat → Nat
  removed : Nat → List Nat

namespace MTask

/-- The body of the marking loop, pire/minimize.h:101-105; the second component is `splittedClasses`. -/
def mark (acc : MState × List Nat) (q : Nat) : MState × List Nat :=
  let (st, sp) := acc
  let k := st.cls q
  let (st, sp) := if st.change k ≠ st.classes then ({ st with change := Function.update st.change k st.classes }, sp ++ [k])
    else (st, sp)
  ({ st with removed := Function.update st.removed k (st.removed k ++ [q]) }, sp)

/-- The body of the letter loop, pire/minimize.h:134-143 (`old` = splittedClass, `new` = newClass). -/
def pushLetter (old new : Nat) (st : MState) (l : Nat) : MState :=
  let k := if st.queued old l || (st.cstates old).length > (st.cstates new).length then new else old
  { st with queued := fun k' l' => if k' = k ∧ l' = l then true else st.queued k' l'
            queue := st.queue ++ [(k, l)] }

/-- The body of the splitting loop, pire/minimize.h:110-144. -/
def split (t : MTask) (st : MState) (k : Nat) : MState :=
  if (st.removed k).length = (st.cstates k).length then
    { st with change := Function.update st.change k 0, removed := Function.update st.removed k [] }
  else
    let new := st.classes
    let st := { st with classes := st.classes + 1, change := Function.update st.change k new }
    -- std::swap(classStates[newClass], removedStates[splittedClass])
    let a := st.cstates new
    let b := st.removed k
    let st := { st with cstates := Function.update st.cstates new b, removed := Function.update st.removed k a }
    let st := { st with cls := (st.cstates new).foldl (fun f q => Function.update f q new) st.cls }
    let st := { st with cstates := Function.update st.cstates k ((st.cstates k).filter fun q => st.cls q = k) }
    (List.range t.letters).foldl (pushLetter k new) st

/-- The main loop, pire/minimize.h:92-145. Every iteration removes a queue entry and every split (there are fewer
than `size` of them) adds `letters` entries, so `size * letters + 1` loop tests suffice (`hopcroft_spec`). -/
def loop (t : MTask) : Nat → MState → MState
  | 0, st => st
  | fuel + 1, st =>
    match st.queue with
    | [] => st
    | (c, l) :: rest =>
      let st := { st with queue := rest, queued := fun k' l' => if k' = c ∧ l' = l then false else st.queued k' l' }
      let (st, sp) := ((st.cstates c).flatMap fun p => t.prev p l).foldl mark (st, [])
      loop t fuel (sp.foldl t.split st)

/-- `Minimize(task)`, pire/minimize.h:60-149, given the initial `StateClass` and `Classes`; the result is their final
value, as seen by `AcceptStates`. -/
def run (t : MTask) (cls : Nat → Nat) (classes : Nat) : MState :=
  let st : MState :=
    { cls := cls, classes := classes
      cstates := fun k => (List.range t.size).filter fun q => cls q = k
      queue := (List.range classes).flatMap fun k => (List.range t.letters).map fun l => (k, l)
      queued := fun k l => decide (k < classes) && decide (l < t.letters)
      change := fun _ => 0
      removed := fun _ => [] }
  t.loop (t.size * t.letters + 1) st

end MTask

namespace Fsm

/-- `*transition.second.begin()`: the least target (for an empty set, where the code has undefined behaviour, 0). -/
def firstDst (f : Fsm) (q c : Nat) : Nat := (elems (f.dst q c)).headD 0

/-- `reversedTransitions`, pire/fsm.cpp:1057-1068: ascending list of the states having a transition of that letter
class into `p`; the set `usedTransitions` makes each state occur once. (`Index` throws for an unclassified key; there
are none in a determined automaton.) -/
def minPrev (f : Fsm) (p l : Nat) : List Nat :=
  (List.range f.size).filter fun q =>
    (rowKeys (f.tr q)).any fun c => f.letters.index c == some l && f.firstDst q c == p

/-- `StateClass`, `Classes` of the constructor, pire/fsm.cpp:1049-1055: classes are numbered in order of first
appearance of `IsFinal`. The class of states with the finality of state 0 is 0, the other one, if any, is 1. -/
def minCls (f : Fsm) (q : Nat) : Nat := if f.isFinal q = f.isFinal 0 then 0 else 1

/-- See `minCls`. -/
def minClasses (f : Fsm) : Nat :=
  if f.size = 0 then 0 else if (List.range f.size).all fun q => f.isFinal q = f.isFinal 0 then 1 else 2

def minTask (f : Fsm) : MTask := { size := f.size, letters := f.letters.size, prev := f.minPrev }

/-- `FsmMinimizeTask::AcceptStates`, pire/fsm.cpp:1088-1127, for given `StateClass` and `Classes`. -/
def mergeClasses (f : Fsm) (cls : Nat → Nat) (classes : Nat) : Fsm :=
  let g := init.resize classes
  let g := { g with letters := f.letters, determined := f.determined, sparsed := f.sparsed }
  let g := g.setFinal 0 false
  let g := g.connectAll ((List.range f.size).flatMap fun q =>
    (rowKeys (f.tr q)).map fun c => (cls q, cls (f.firstDst q c), c))
  let fin := (List.range f.size).foldl (fun s q => if f.isFinal q then insert (cls q) s else s) g.finals
  let tags := (List.range f.size).foldl (fun ts q => match f.tags q with
    | none => ts
    | some t => Function.update ts (cls q) (some ((ts (cls q)).getD 0 ||| t))) g.tags
  -- map::insert keeps the first value
  let outs : Nat → Option (Nat → Option Nat) := fun k =>
    if (List.range f.size).any (fun q => decide (cls q = k) && (f.outputs q).isSome) then
      some fun l => ((List.range f.size).flatMap fun q => (List.range f.size).filterMap fun p =>
        if cls q = k ∧ cls p = l then (f.outputs q).bind (· p) else none).head?
    else none
  { g with finals := fin, tags := tags, initial := cls f.initial, outputs := outs }

/-- `Minimize`, pire/fsm.cpp:1150-1159: `task.Output().Swap(*this)`; nothing happens if not determined (release build). -/
def minimize (f : Fsm) : Fsm :=
  if f.determined then
    let r := f.minTask.run f.minCls f.minClasses
    swapFrom f (f.mergeClasses r.cls r.classes)
  else f

/-- `Canonize(maxSize)`, pire/fsm.cpp:1161-1169; `none` = throws. -/
def canonize (f : Fsm) (maxSize : Nat := 0) : Option Fsm :=
  if f.determined then some f.minimize
  else
    let r := f.determine maxSize
    if r.2 then some r.1.minimize else none

/-- `Complement`, pire/fsm.cpp:560-574; `none` = throws. -/
def complement (f : Fsm) : Option Fsm :=
  let r := f.determine
  if r.2 then
    let f := r.1.minimize
    let f := f.resize (f.size + 1)
    let f := f.connectAll (((List.range f.size).filter fun i => !f.isFinal i).map fun i => (i, f.size - 1, Epsilon))
    let f := f.clearFinal
    let f := f.setFinal (f.size - 1) true
    some { f with determined := false }
  else none

/-- `operator &=`, pire/fsm.cpp:530-538; `none` = a complement throws. -/
def inter (f rhs : Fsm) : Option Fsm := do
  let r ← rhs.complement
  let f ← f.complement
  let u := f.union r
  u.complement

end Fsm
end Pire
