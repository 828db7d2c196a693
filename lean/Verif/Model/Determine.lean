import Verif.Model.Epsilon

/-!
# Determinisation — pire/determine.h:91-137, pire/fsm.cpp:859-1034
-/

namespace Pire

/-- The parts of a determination task the generic algorithm calls back, pire/determine.h:36-72. -/
structure DTask (S : Type) where
  letters : Partition
  initial : S
  next : S → Nat → S
  required : S → Bool

/-- Local variables of `Determine`, pire/determine.h:98-104: `states`, `invstates`, the remaining budget `maxSize`,
and `stateIndices`/`transitions` (one `(index, row)` per required state). -/
structure DState (S : Type) where
  states : List S
  inv : S → Option Nat
  left : Nat
  trans : List (Nat × (Nat → Nat))

namespace DTask

variable {S : Type} [DecidableEq S]

/-- The body of the letter loop, pire/determine.h:110-120; `none` = `task.Failure()`. -/
def rowStep (t : DTask S) (s : S) (acc : DState S × (Nat → Nat)) (e : PClass) : Option (DState S × (Nat → Nat)) :=
  let (st, row) := acc
  let ns := t.next s e.rep
  match st.inv ns with
  | some i => some (st, Function.update row e.idx i)
  | none =>
    if st.left = 0 then none
    else some ({ st with states := st.states ++ [ns],
                         inv := Function.update st.inv ns (some st.states.length),
                         left := st.left - 1 },
               Function.update row e.idx st.states.length)

/-- The outer loop, pire/determine.h:106-123. There are at most `maxSize + 1` states, so the number of loop tests is at
most `maxSize + 2`, which is the fuel given by `run`. -/
def loop (t : DTask S) : Nat → Nat → DState S → Option (DState S)
  | 0, _, st => some st
  | fuel + 1, idx, st =>
    match st.states[idx]? with
    | none => some st
    | some s =>
      if t.required s then
        match t.letters.set.foldlM (t.rowStep s) (st, fun _ => 0) with
        | none => none
        | some (st, row) => loop t fuel (idx + 1) { st with trans := st.trans ++ [(idx, row)] }
      else loop t fuel (idx + 1) st

/-- `invletters`, pire/determine.h:125-127. -/
def invLetters (t : DTask S) : Nat → Nat :=
  t.letters.set.foldl (fun f e => Function.update f e.idx e.rep) fun _ => 0

/-- `Determine(task, maxSize)`, pire/determine.h:91-137. `none` = Failure; otherwise the arguments of
`task.AcceptStates` and the sequence of `task.Connect(from, to, letter)` calls. -/
def run (t : DTask S) (maxSize : Nat) : Option (List S × List (Nat × Nat × Nat)) :=
  let st : DState S := { states := [t.initial], inv := Function.update (fun _ => none) t.initial (some 0),
                         left := maxSize, trans := [] }
  (t.loop (maxSize + 2) 0 st).map fun st =>
    (st.states, st.trans.flatMap fun ir =>
      (List.range t.letters.size).map fun l => (ir.1, ir.2 l, t.invLetters l))

end DTask

namespace Fsm

/-- `TerminalStates`, pire/fsm.cpp:861-874. -/
def terminalStates (f : Fsm) : Finset Nat :=
  f.finals.filter fun q => ∀ e ∈ f.letters.set, q ∈ f.dst q e.rep

/-- `FsmDetermineTask`, pire/fsm.cpp:877-915. A sorted duplicate-free vector of states is a `Finset`. -/
def determineTask (f : Fsm) : DTask (Finset Nat) where
  letters := f.letters
  initial := {f.initial}
  next := fun s c => s.biUnion fun q => f.destinations q c
  required := fun s => decide (∀ q ∈ s, q ∉ f.terminalStates)

/-- Bitwise or of the tags of a set of states, pire/fsm.cpp:946-951. (The early `break` is taken only if there are no
tags at all.) -/
def orTags (f : Fsm) (s : Finset Nat) : Option Nat :=
  (elems s).foldl (fun acc j => match f.tags j with | none => acc | some t => some (acc.getD 0 ||| t)) none

/-- Bitwise or of the outputs between two sets of states, pire/fsm.cpp:954-972. -/
def orOutputs (f : Fsm) (s s' : Finset Nat) : Option Nat :=
  (elems s).foldl (fun acc i => (elems s').foldl (fun acc j =>
    match (f.outputs i).bind (· j) with | none => acc | some v => some (acc.getD 0 ||| v)) acc) none

/-- `FsmDetermineTask::AcceptStates`, `Connect` and `Success`, pire/fsm.cpp:916-1003. -/
def buildDetermined (f : Fsm) (states : List (Finset Nat)) (conns : List (Nat × Nat × Nat)) : Fsm :=
  let n := states.length
  let g := init.resize n
  let g := { g with initial := 0, determined := true, letters := f.letters, finals := ∅ }
  -- terminal states loop on every letter
  let g := g.connectAll ((List.range n).flatMap fun ns =>
    (elems (states.getD ns ∅)).flatMap fun j =>
      if j ∈ f.terminalStates then f.letters.set.map fun e => (ns, ns, e.rep) else [])
  let fin := (Finset.range n).filter fun ns => ∃ j ∈ states.getD ns ∅, j ∈ f.finals
  let g := { g with finals := fin
                    tags := fun ns => if ns < n then f.orTags (states.getD ns ∅) else none }
  let g : Fsm := g.connectAll conns
  -- outputs are kept only along existing transitions
  let outs : Nat → Option (Nat → Option Nat) := fun k =>
    if k < n then
      some fun (l : Nat) =>
        if (List.range MaxChar).any (fun c => decide (l ∈ g.dst k c)) then f.orOutputs (states.getD k ∅) (states.getD l ∅) else none
    else none
  { g with outputs := outs }

/-- `Determine(maxsize)`, pire/fsm.cpp:1016-1034: the new value of the automaton and the returned flag. -/
def determine (f : Fsm) (maxsize : Nat := 0) : Fsm × Bool :=
  if f.determined then (f, true)
  else
    let g := f.removeEpsilons
    match g.determineTask.run (if maxsize ≠ 0 then maxsize else 200000) with
    | some (states, conns) => (swapFrom g (g.buildDetermined states conns), true)
    | none => (g, false)

end Fsm
end Pire
