import Verif.Model.Determine

/-!
# `GluedStateLookupTable` — pire/glue.h:50-111, and `Determine` (pire/determine.h:91-137) instantiated with it
-/

namespace Pire

/-- `mMap` and `mFilled`, pire/glue.h:105-106; only indexes below `N` exist. -/
structure LTable where
  map : Nat → (Nat × Nat) × Nat
  filled : Nat → Bool

namespace LTable

/-- The constructor, pire/glue.h:64-67. -/
def empty : LTable := ⟨fun _ => ((0, 0), 0), fun _ => false⟩

/-- `Hash`, pire/glue.h:101-103, on 64-bit values. -/
def hash (k : Nat × Nat) : Nat := (k.1 >>> 2) ^^^ (k.2 >>> 4) ^^^ ((k.2 <<< 10) % 2 ^ 64)

/-- The loop of `Search`, pire/glue.h:93-97; `stop` is `(startInd + N - 1) % N`. `none` = the loop ends and -1 is returned. -/
def searchLoop (t : LTable) (N : Nat) (k : Nat × Nat) (stop : Nat) : Nat → Nat → Option Nat
  | 0, _ => none
  | fuel + 1, ind =>
    if ind = stop then none
    else if !t.filled ind || (t.map ind).1 == k then some ind
    else searchLoop t N k stop fuel ((ind + 1) % N)

/-- `Search`, pire/glue.h:91-99. The loop makes at most `N - 1` rounds. -/
def search (t : LTable) (N : Nat) (k : Nat × Nat) : Option Nat :=
  let start := hash k % N
  t.searchLoop N k ((start + N - 1) % N) N start

/-- `find`, pire/glue.h:75-78: `some none` = `end()`, `some (some v)` = an iterator to an entry with value `v`;
`none` = `mFilled[-1]` is read (undefined behaviour). -/
def find (t : LTable) (N : Nat) (k : Nat × Nat) : Option (Option Nat) :=
  (t.search N k).map fun ind => if t.filled ind then some (t.map ind).2 else none

/-- `insert`, pire/glue.h:80-88: the new table, the value behind the returned iterator and the flag; `none` = undefined
behaviour as in `find`. -/
def insert (t : LTable) (N : Nat) (k : Nat × Nat) (v : Nat) : Option (LTable × Nat × Bool) :=
  (t.search N k).map fun ind =>
    if t.filled ind then (t, (t.map ind).2, false)
    else (⟨Function.update t.map ind (k, v), Function.update t.filled ind true⟩, v, true)

/-- Inserting one after another into a new table. -/
def insertAll (N : Nat) (l : List ((Nat × Nat) × Nat)) : Option LTable :=
  l.foldlM (fun t x => (t.insert N x.1 x.2).map (·.1)) empty

end LTable

/-- Local variables of `Determine` (pire/determine.h:98-104) with `InvStates = GluedStateLookupTable`. -/
structure TState where
  states : List (Nat × Nat)
  inv : LTable
  left : Nat
  trans : List (Nat × (Nat → Nat))

namespace DTask

/-- What a run of `Determine` can end with. -/
inductive Outcome (α : Type)
  /-- undefined behaviour -/
  | bad
  /-- `task.Failure()` -/
  | fail
  | ok (a : α)

/-- The body of the letter loop, pire/determine.h:110-120. -/
def rowStepT (N : Nat) (t : DTask (Nat × Nat)) (s : Nat × Nat) (acc : TState × (Nat → Nat)) (e : PClass) :
    Outcome (TState × (Nat → Nat)) :=
  let (st, row) := acc
  let ns := t.next s e.rep
  match st.inv.find N ns with
  | none => .bad
  | some (some i) => .ok (st, Function.update row e.idx i)
  | some none =>
    if st.left = 0 then .fail
    else
      match st.inv.insert N ns st.states.length with
      | none => .bad
      | some (tab, v, _) =>
        .ok ({ st with states := st.states ++ [ns], inv := tab, left := st.left - 1 }, Function.update row e.idx v)

/-- The letter loop. -/
def rowT (N : Nat) (t : DTask (Nat × Nat)) (s : Nat × Nat) : List PClass → TState × (Nat → Nat) → Outcome (TState × (Nat → Nat))
  | [], acc => .ok acc
  | e :: es, acc =>
    match t.rowStepT N s acc e with
    | .bad => .bad
    | .fail => .fail
    | .ok acc => rowT N t s es acc

/-- The outer loop, pire/determine.h:106-123. -/
def loopT (N : Nat) (t : DTask (Nat × Nat)) : Nat → Nat → TState → Outcome TState
  | 0, _, st => .ok st
  | fuel + 1, idx, st =>
    match st.states[idx]? with
    | none => .ok st
    | some s =>
      if t.required s then
        match t.rowT N s t.letters.set (st, fun _ => 0) with
        | .bad => .bad
        | .fail => .fail
        | .ok (st, row) => loopT N t fuel (idx + 1) { st with trans := st.trans ++ [(idx, row)] }
      else loopT N t fuel (idx + 1) st

/-- `Determine(task, maxSize)`, pire/determine.h:91-137: the arguments of `AcceptStates` and of the `Connect` calls. -/
def runT (N : Nat) (t : DTask (Nat × Nat)) (maxSize : Nat) : Outcome (List (Nat × Nat) × List (Nat × Nat × Nat)) :=
  match LTable.empty.insert N t.initial 0 with
  | none => .bad
  | some (tab, _, _) =>
    match t.loopT N (maxSize + 2) 0 { states := [t.initial], inv := tab, left := maxSize, trans := [] } with
    | .bad => .bad
    | .fail => .fail
    | .ok st => .ok (st.states, st.trans.flatMap fun ir =>
      (List.range t.letters.size).map fun l => (ir.1, ir.2 l, t.invLetters l))

end DTask
end Pire
