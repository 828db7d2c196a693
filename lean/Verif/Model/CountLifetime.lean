import Verif.Model.Lifetime
import Verif.Model.Count

/-!
# `NoGlueLimitCountingScanner` objects: who owns which memory — pire/extra/count.h, pire/extra/count.cpp

Beside the tables of its base class `LoadedScanner` (Model/Lifetime.lean) such an object has an array of actions: `ActionsBuffer` owns an array or nothing, `Actions` points
to the array of `ActionsBuffer`, or to mapped memory, or nowhere. Arrays of actions are the units of memory here; they do not overlap the blocks of the tables.
-/

namespace Pire
namespace CountLife
open Count

/-- The fields that `NoGlueLimitCountingScanner` adds, count.h:365-368: `ActionsBuffer`, `Actions` (addresses of arrays), `AdvancedScannerCompatibilityMode`. -/
structure Acts where
  buffer : Option Nat
  actions : Option Nat
  compat : Bool

/-- The arrays that have been allocated with `new` and not deleted, the mapped arrays, and the variables that exist. -/
structure Arrays where
  heap : Nat → Option (List Nat)
  mapped : Nat → Option (List Nat)
  vars : Nat → Option Acts

/-- Reading an array. `none`: there is no array. -/
def Arrays.look (w : Arrays) (a : Nat) : Option (List Nat) := (w.heap a).or (w.mapped a)

/-- What a program can do with variables. Everything `LoadedScanner` does is in `Op.tables`. -/
inductive Op
  /-- `NoGlueLimitCountingScanner()`, count.h:371. -/
  | default (v : Nat)
  /-- The constructors with automata, pire/extra/count.cpp:870-873 (no actions), and what `Glue` returns: `AcceptActions`, count.h:476-484. -/
  | make (v : Nat) (x : Loaded) (n : Nat) (val : Loaded) (acts : Option (Nat × List Nat))
  /-- The local scanner in `Mmap`, pire/extra/count.cpp:1042-1061: `Actions` points to mapped memory. `compat`: an `AdvancedCountingScanner` was saved. -/
  | attach (v : Nat) (x : Loaded) (val : Loaded) (acts : Option (Nat × List Nat)) (compat : Bool)
  /-- The copy constructor, count.h:373-386. `a`: the new block of tables, `b`: the new array of actions, if there are any. -/
  | copy (v u a b : Nat)
  /-- `Swap`, count.h:396-401. -/
  | swap (v u : Nat)
  /-- The destructor: the members `ActionsBuffer` and `m_buffer` delete what they own. -/
  | destroy (v : Nat) (junk : Mem)
  /-- `Load` of what a `NoGlueLimitCountingScanner` saved, pire/extra/count.cpp:1020-1034; `t`: the local `LoadedScanner` of `LoadedScanner::Load`. -/
  | load (t v : Nat) (x : Loaded) (n : Nat) (val : Loaded) (junk : Mem) (acts : Option (Nat × List Nat))
  /-- `Load` of what an `AdvancedCountingScanner` saved, pire/extra/count.cpp:1035-1038. -/
  | loadAdvanced (t v : Nat) (x : Loaded) (n : Nat) (val : Loaded) (junk : Mem)
  /-- Memory with tables gets mapped, is unmapped. -/
  | map (a n : Nat) (content : Mem)
  | unmap (a n : Nat) (junk : Mem)
  /-- Memory with actions gets mapped, is unmapped. -/
  | mapActs (a : Nat) (l : List Nat)
  | unmapActs (a : Nat)

/-- What happens to the tables: the operations of the base class. `BaseCountingScanner`, count.h:21-137, has no fields. -/
def Op.tables : Op → List (Life.Op Loaded Loaded)
  | .default v => [.default v]
  | .make v x n val _ => [.make v x n val]
  | .attach v x val _ _ => [.attach v x val]
  | .copy v u a _ => [.copy v u a]
  | .swap v u => [.swap v u]
  | .destroy v junk => [.destroy v junk]
  | .load t v x n val junk _ => Life.loadInto t v x n val junk
  | .loadAdvanced t v x n val junk => Life.loadInto t v x n val junk
  | .map a n content => [.map a n content]
  | .unmap a n junk => [.unmap a n junk]
  | .mapActs _ _ => []
  | .unmapActs _ => []

/-- `new ActionIndex[n]` and filling it. -/
def alloc (heap : Nat → Option (List Nat)) : Option (Nat × List Nat) → Nat → Option (List Nat)
  | none => heap
  | some x => Function.update heap x.1 (some x.2)

/-- `delete[]` of what a `std::unique_ptr` owns. `none`: it has been deleted before. -/
def free (heap : Nat → Option (List Nat)) : Option Nat → Option (Nat → Option (List Nat))
  | none => some heap
  | some a => if (heap a).isSome then some (Function.update heap a none) else none

/-- What happens to the actions. `none`: an array that does not exist is read or deleted. -/
def Arrays.step (w : Arrays) : Op → Option Arrays
  | .default v => some { w with vars := Function.update w.vars v (some ⟨none, none, false⟩) }
  | .make v _ _ _ acts => some { w with
      heap := alloc w.heap acts
      vars := Function.update w.vars v (some ⟨acts.map (·.1), acts.map (·.1), false⟩) }
  | .attach v _ _ acts compat => some { w with vars := Function.update w.vars v (some ⟨none, acts.map (·.1), compat⟩) }
  | .copy v u _ b => (w.vars u).bind fun o =>
      match o.buffer with
      | none => some { w with vars := Function.update w.vars v (some o) }
      | some c =>
        -- `*rhs.Actions` elements of `ActionsBuffer` are copied
        (o.actions.bind w.look).bind fun k => k.head?.bind fun n => (w.look c).bind fun l =>
          if n ≤ l.length then some { w with
            heap := Function.update w.heap b (some (l.take n))
            vars := Function.update w.vars v (some ⟨some b, some b, o.compat⟩) }
          else none
  | .swap v u => some { w with vars := Function.update (Function.update w.vars v (w.vars u)) u (w.vars v) }
  | .destroy v _ => (w.vars v).bind fun o => (free w.heap o.buffer).map fun h => { w with heap := h, vars := Function.update w.vars v none }
  | .load _ v _ _ _ _ acts => (w.vars v).bind fun o => (free (alloc w.heap acts) o.buffer).map fun h => { w with
      heap := h
      vars := Function.update w.vars v (some { o with buffer := acts.map (·.1), actions := acts.map (·.1) }) }
  | .loadAdvanced _ v _ _ _ _ => (w.vars v).map fun o => { w with vars := Function.update w.vars v (some { o with compat := true }) }
  | .map _ _ _ => some w
  | .unmap _ _ _ => some w
  | .mapActs a l => some { w with mapped := Function.update w.mapped a (some l) }
  | .unmapActs a => some { w with mapped := Function.update w.mapped a none }

/-- The tables (with their memory and the base class parts of the variables) and the rest. -/
structure World where
  tables : Life.World Loaded
  arrays : Arrays

/-- What an operation does; `nul`: the static empty `LoadedScanner`. -/
def step (nul : Loaded) (w : World) (op : Op) : Option World :=
  (Life.run (Life.loadedKind nul) w.tables op.tables).bind fun t => (w.arrays.step op).map fun a => ⟨t, a⟩

/-- One operation after another. -/
def run (nul : Loaded) (w : World) (ops : List Op) : Option World := ops.foldlM (step nul) w

/-! Operations that are made of these, with the local variable (or parameter) `t`. -/

/-- `v = u`, count.h:391-394: the parameter is a copy. -/
def assign (t v u a b : Nat) (junk : Mem) : List Op := [.copy t u a b, .swap t v, .destroy t junk]

/-- `NoGlueLimitCountingScanner v(std::move(u))`, count.h:387-389. -/
def moveInto (v u : Nat) : List Op := [.default v, .swap v u]

/-- `v = std::move(u)`: the parameter is made by the move constructor. -/
def moveAssign (t v u : Nat) (junk : Mem) : List Op := moveInto t u ++ [.swap t v, .destroy t junk]

/-- `Mmap`, pire/extra/count.cpp:1042-1061: a local scanner is swapped with `*this`. -/
def mmapInto (t v : Nat) (x val : Loaded) (acts : Option (Nat × List Nat)) (compat : Bool) (junk : Mem) : List Op :=
  [.attach t x val acts compat, .swap t v, .destroy t junk]

/-- `Load` when the stream ends within the actions, pire/extra/count.cpp:1020-1034: the tables have been loaded and swapped in, a new array (with the size and some of the
numbers in it, `l`) is in `ActionsBuffer` and the old one deleted; `LoadPodArray` throws before `Actions` is set. -/
def failedLoad (nul : Loaded) (w : World) (t v : Nat) (x : Loaded) (n : Nat) (val : Loaded) (junk : Mem) (a : Nat) (l : List Nat) : Option World :=
  (Life.run (Life.loadedKind nul) w.tables (Life.loadInto t v x n val junk)).bind fun tb =>
    (w.arrays.vars v).bind fun o => (free (alloc w.arrays.heap (some (a, l))) o.buffer).map fun h =>
      ⟨tb, { w.arrays with heap := h, vars := Function.update w.arrays.vars v (some { o with buffer := some a }) }⟩

end CountLife
end Pire
