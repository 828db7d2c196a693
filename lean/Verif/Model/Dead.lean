import Verif.Model.Fsm

/-!
# `DeadStates`, `RemoveDeadEnds`, `MakePrefix` — pire/fsm.cpp:584-711
-/

namespace Pire
namespace Fsm

/-- Local variables of the search in `DeadStates`, pire/fsm.cpp:655-657. -/
structure BfsSt where
  unchecked : Nat → Bool
  useless : Nat → Bool
  queue : List Nat

/-- Visit one neighbour, pire/fsm.cpp:673-679. -/
def bfsVisit (s : BfsSt) (fr : Nat) : BfsSt :=
  if s.unchecked fr && s.useless fr then
    { s with useless := Function.update s.useless fr false, queue := s.queue ++ [fr] }
  else s

/-- The `while (!queue.empty())` loop, pire/fsm.cpp:667-683, for at most `fuel` iterations (every state is queued at
most once, so `Size()` iterations always empty the queue: `bfs_empties` in Proofs/Dead). -/
def bfs (adj : Nat → List Nat) : Nat → BfsSt → BfsSt
  | 0, s => s
  | fuel + 1, s =>
    match s.queue with
    | [] => s
    | hd :: q =>
      let s := (adj hd).foldl bfsVisit { s with queue := q }
      bfs adj fuel { s with unchecked := Function.update s.unchecked hd false }

/-- The seeds, pire/fsm.cpp:659-663. -/
def bfsInit (n : Nat) (seed : Nat → Bool) : BfsSt :=
  (List.range n).foldl (fun s i => if seed i then
      { s with useless := Function.update s.useless i false, queue := s.queue ++ [i] } else s)
    { unchecked := fun _ => true, useless := fun _ => true, queue := [] }

/-- The auxiliary graph, pire/fsm.cpp:638-652. -/
def digraph (f : Fsm) (invert : Bool) : Fsm :=
  (init.resize f.size).connectAll ((List.range f.size).flatMap fun q =>
    (rowEdges (f.tr q)).map fun e => if invert then (e.2, q, 0) else (q, e.2, 0))

/-- One pass of the outer loop: the flags `useless`, pire/fsm.cpp:637-684. -/
def uselessStates (f : Fsm) (invert : Bool) : Nat → Bool :=
  let g := f.digraph invert
  let seed := fun i => (invert && f.isFinal i) || (!invert && f.initial == i)
  (bfs (fun q => elems (g.dst q 0)) f.size (bfsInit f.size seed)).useless

/-- `DeadStates`, pire/fsm.cpp:633-693. -/
def deadStates (f : Fsm) : Finset Nat :=
  (Finset.range f.size).filter (fun i => f.uselessStates false i = true) ∪
  (Finset.range f.size).filter (fun i => f.uselessStates true i = true)

/-- Loop body of `RemoveDeadEnds`, pire/fsm.cpp:701-707. -/
def removeState (f : Fsm) (i : Nat) : Fsm :=
  { f with tr := fun q c => if q = i then none else (f.tr q c).map (·.erase i) }

/-- `RemoveDeadEnds`, pire/fsm.cpp:695-711. -/
def removeDeadEnds (f : Fsm) : Fsm :=
  ((elems f.deadStates).foldl removeState f).clearHints

/-- `MakePrefix`, pire/fsm.cpp:584-591. -/
def makePrefix (f : Fsm) : Fsm :=
  let f := f.removeDeadEnds
  let fin := (List.range f.size).foldl (fun s i => if rowKeys (f.tr i) = [] then s else insert i s) f.finals
  clearHints { f with finals := fin }

end Fsm
end Pire
