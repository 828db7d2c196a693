import Verif.Model.Loaded

/-!
# Counting scanners — pire/extra/count.h, pire/extra/count.cpp: states, actions, gluing

Counters are 32-bit numbers.  `none` (where it occurs) = memory outside of an array is accessed.
-/

namespace Pire
namespace Count

/-- `CountingState`, pire/extra/count.h:206-237 (`m_updatedMask` is a `size_t`), and `NoGlueLimitCountingState`, 315-356 (which has no mask). -/
structure State where
  /-- `m_state` -/
  st : Nat
  /-- `m_current` -/
  current : Nat → Nat
  /-- `m_total` -/
  total : Nat → Nat
  /-- `m_updatedMask` -/
  updated : Nat

/-- `Result`, pire/extra/count.h:209 and 317. -/
def State.result (s : State) (i : Nat) : Nat := max (s.current i) (s.total i)

/-- `Initialize`, pire/extra/count.h:129-135, 318-322 and 403-406. -/
def initState (st : Nat) : State := { st := st, current := fun _ => 0, total := fun _ => 0, updated := 0 }

/-- `IncrementPerformer<I>::Do`, pire/extra/count.h:48-78. -/
def incPerform : Nat → Nat → State → State
  | 0, _, s => s
  | i + 1, mask, s =>
    incPerform i mask (if mask &&& 1 <<< i ≠ 0 then { s with current := Function.update s.current i ((s.current i + 1) % 2 ^ 32) } else s)

/-- `ResetPerformer<I>::Do`, pire/extra/count.h:80-111. -/
def resetPerform : Nat → Nat → State → State
  | 0, _, s => s
  | i + 1, mask, s =>
    resetPerform i mask (if mask &&& 1 <<< (Loaded.MaxReCount + i) ≠ 0 ∧ s.current i ≠ 0 then
      { s with total := Function.update s.total i (max (s.total i) (s.current i)), current := Function.update s.current i 0 } else s)

/-- `PerformIncrement`, pire/extra/count.h:180-187. -/
def performIncrement (s : State) (mask : Nat) : State :=
  if mask ≠ 0 then
    let s := incPerform Loaded.MaxReCount mask s
    { s with updated := s.updated ||| mask <<< Loaded.MaxReCount % 2 ^ 64 }
  else s

/-- `PerformReset`, pire/extra/count.h:189-197; the mask is a 32-bit number. -/
def performReset (s : State) (mask : Nat) : State :=
  let mask := (mask &&& s.updated) % 2 ^ 32
  if mask ≠ 0 then
    let s := resetPerform Loaded.MaxReCount mask s
    { s with updated := s.updated &&& (2 ^ 32 - 1 ^^^ mask) }
  else s

/-- `IncrementMask` and `ResetMask`, pire/scanners/loaded.h:224-225. -/
def incrementMask : Nat := 1 <<< Loaded.MaxReCount - 1
/-- See `incrementMask`. -/
def resetMask : Nat := incrementMask <<< Loaded.MaxReCount

/-- `CountingScanner::TakeActionImpl`, pire/extra/count.h:250-258. -/
def takeBasic (s : State) (a : Nat) : State :=
  let s := if a &&& incrementMask ≠ 0 then performIncrement s a else s
  if a &&& resetMask ≠ 0 then performReset s a else s

/-- `AdvancedCountingScanner::TakeActionImpl`, pire/extra/count.h:285-295. -/
def takeAdvanced (s : State) (a : Nat) : State :=
  let s := if a &&& resetMask ≠ 0 then performReset s a else s
  if a &&& incrementMask ≠ 0 then performIncrement s a else s

/-- `CountingScanner::RemapAction`, pire/extra/count.h:261-269: `Matched = 2`, `DeadFlag = 1`. -/
def remapBasic (a : Nat) : Nat := if a = 3 then 1 else if a = 1 then 1 <<< Loaded.MaxReCount else 0

/-- `AdvancedCountingScanner::RemapAction`, pire/extra/count.h:298-308: `ResetAction = 2`, `IncrementAction = 1`. -/
def remapAdvanced (a : Nat) : Nat :=
  (if a &&& 2 ≠ 0 then 1 <<< Loaded.MaxReCount else 0) ||| if a &&& 1 ≠ 0 then 1 else 0

/-- The end of `MakeAdvancedCountingScanner`, pire/extra/count.cpp:848-861: a scanner is filled in from a deterministic table
(`next q c` = the only destination of `q` on the letter `c`, `out` = `countingFsm.Output`). -/
def fillTable (remap : Nat → Nat) (base n initial : Nat) (letters : Partition) (next out : Nat → Nat → Nat) : Loaded :=
  (List.range n).foldl (fun s q => letters.set.foldl (fun s e => s.setJump q e.rep (next q e.rep) (remap (out q e.rep) % 2 ^ 32)) s)
    (Loaded.init base n letters initial 1)

/-- The scanner as run.h sees it: `Initialize` 129, `Next` 157, `TakeAction` 137, `Final` 168, `Dead` 170 of pire/extra/count.h. -/
def scn (take : State → Nat → State) (s : Loaded) : Scn State Nat where
  initial := initState s.initial
  next := fun st c => ({ st with st := (s.next st.st c).1 }, (s.next st.st c).2)
  takeAction := take
  final := fun _ => false
  dead := fun _ => false

/-- `CountingScannerGlueTask::Connect`, pire/extra/count.cpp:901-905. -/
def connect (a b : Loaded) (states : List (Nat × Nat)) (s : Loaded) (x : Nat × Nat × Nat) : Loaded :=
  let st := states.getD x.1 (0, 0)
  s.setJump x.1 x.2.2 x.2.1 (a.actionAt st.1 x.2.2 ||| b.actionAt st.2 x.2.2 <<< a.reCount % 2 ^ 32)

/-- `CountingScanner::Glue`, pire/extra/count.cpp:980-988, and `AdvancedCountingScanner::Glue`, 988-996. The scanner is built at `base`, the
result is its copy at `base'`; `null` is the empty scanner. -/
def glue (null : Loaded) (base base' : Nat) (a b : Loaded) (maxSize : Nat := 0) : Loaded :=
  if a.reCount + b.reCount > Loaded.MaxReCount then null
  else
    match (Loaded.glueTask a b).run (if maxSize ≠ 0 then maxSize else 250000) with
    | none => null
    | some (states, conns) => Loaded.copyCtor true base' (conns.foldl (connect a b states) (Loaded.acceptStates base a b states))

/-! ### `NoGlueLimitCountingScanner` -/

/-- `NoGlueLimitCountingScanner`, pire/extra/count.h:359-368: `Actions` (`none` = null; the array `Actions` points to, its first element
is its length), `AdvancedScannerCompatibilityMode`. -/
structure NoLimit where
  base : Loaded
  actions : Option (List Nat)
  compat : Bool

/-- `Reset`, pire/extra/count.h:324-326; `n` = the size of the vectors. -/
def resetOne (n : Nat) (s : State) (i : Nat) : Option State :=
  if i < n then some { s with current := Function.update s.current i 0 } else none

/-- `Increment`, pire/extra/count.h:328-331. -/
def incOne (n : Nat) (s : State) (i : Nat) : Option State :=
  if i < n then
    let v := (s.current i + 1) % 2 ^ 32
    some { s with current := Function.update s.current i v, total := Function.update s.total i (max (s.total i) v) }
  else none

/-- `count` elements of the array starting at `p` (the loops at pire/extra/count.h:423-428 and 469-473). -/
def readIds (l : List Nat) (p count : Nat) : Option (List Nat) :=
  if p + count ≤ l.length then some ((l.drop p).take count) else none

/-- The two lists of ids of an action, each preceded by its length. -/
def readAction (l : List Nat) (a : Nat) : Option (List Nat × List Nat) :=
  (l[a]?).bind fun n => (readIds l (a + 1) n).bind fun rs => (l[a + 1 + n]?).bind fun m => (readIds l (a + 1 + n + 1) m).map fun is => (rs, is)

/-- `TakeActionImpl`, pire/extra/count.h:408-438. -/
def NoLimit.take (s : NoLimit) (st : State) (a : Nat) : Option State :=
  if a = 0 then some st
  else if s.compat then
    -- `AdvancedScannerTakeActionImpl`, lines 486-494; the performers access the counters whose bits are set
    if ∀ i < Loaded.MaxReCount, a.testBit i = true ∨ a.testBit (Loaded.MaxReCount + i) = true → i < s.base.reCount then
      let st := if a &&& resetMask ≠ 0 then resetPerform Loaded.MaxReCount a st else st
      some (if a &&& incrementMask ≠ 0 then incPerform Loaded.MaxReCount a st else st)
    else none
  else
    match s.actions with
    | some l => (readAction l a).bind fun x => (x.1.foldlM (resetOne s.base.reCount) st).bind fun st => x.2.foldlM (incOne s.base.reCount) st
    | none =>
      (if a &&& 2 ≠ 0 then resetOne s.base.reCount st 0 else some st).bind fun st =>
        if a &&& 1 ≠ 0 then incOne s.base.reCount st 0 else some st

/-- The scanner as run.h sees it, see `scn`; `Initialize`, pire/extra/count.h:403-406. The state is `none` after a bad memory access. -/
def scnNoLimit (s : NoLimit) : Scn (Option State) Nat where
  initial := some (initState s.base.initial)
  next := fun o c => (o.map fun st => { st with st := (s.base.next st.st c).1 }, (o.map fun st => (s.base.next st.st c).2).getD 0)
  takeAction := fun o a => o.bind fun st => s.take st a
  final := fun _ => false
  dead := fun _ => false

/-- `GetActions`, pire/extra/count.h:454-474: resets and increments, with ids shifted. -/
def NoLimit.getActions (s : NoLimit) (a shift : Nat) : Option (List Nat × List Nat) :=
  if a = 0 then some ([], [])
  else
    match s.actions with
    | none => some (if a &&& 2 ≠ 0 then [shift] else [], if a &&& 1 ≠ 0 then [shift] else [])
    | some l => (readAction l a).map fun x => (x.1.map fun i => (i + shift) % 2 ^ 32, x.2.map fun i => (i + shift) % 2 ^ 32)

/-- The variables of `NoGlueLimitCountingScannerGlueTask`: the scanner being built, `glue_map_` and `glue_actions_`,
pire/extra/count.cpp:966-971. -/
structure GlueState where
  sc : Loaded
  map : List ((List Nat × List Nat) × Nat)
  acts : List Nat

/-- `NoGlueLimitCountingScannerGlueTask::Connect`, pire/extra/count.cpp:935-962. -/
def connectNoLimit (a b : NoLimit) (states : List (Nat × Nat)) (g : GlueState) (x : Nat × Nat × Nat) : Option GlueState :=
  let st := states.getD x.1 (0, 0)
  (a.getActions (a.base.actionAt st.1 x.2.2) 0).bind fun ga => (b.getActions (b.base.actionAt st.2 x.2.2) a.base.reCount).map fun gb =>
    let act := (ga.1 ++ gb.1, ga.2 ++ gb.2)
    if act.2 = [] ∧ act.1 = [] then { g with sc := g.sc.setJump x.1 x.2.2 x.2.1 0 }
    else
      match g.map.lookup act with
      | some i => { g with sc := g.sc.setJump x.1 x.2.2 x.2.1 i }
      | none =>
        let i := g.acts.length % 2 ^ 32
        { sc := g.sc.setJump x.1 x.2.2 x.2.1 i
          map := (act, i) :: g.map
          acts := g.acts ++ act.1.length % 2 ^ 32 :: act.1 ++ act.2.length % 2 ^ 32 :: act.2 }

/-- The copy constructor, pire/extra/count.h:373-386; `owned` = the source owns its memory. -/
def NoLimit.copyCtor (owned : Bool) (base : Nat) (s : NoLimit) : NoLimit := { s with base := s.base.copyCtor owned base }

/-- `NoGlueLimitCountingScanner::Glue`, pire/extra/count.cpp:1000-1005, with `Success`, 966-971, and `AcceptActions`, pire/extra/count.h:476-484.
The outer `none` = bad memory access. -/
def glueNoLimit (null : Loaded) (base base' : Nat) (a b : NoLimit) (maxSize : Nat := 0) : Option NoLimit :=
  match (Loaded.glueTask a.base b.base).run (if maxSize ≠ 0 then maxSize else 250000) with
  | none => some { base := null, actions := none, compat := false }
  | some (states, conns) =>
    (conns.foldlM (connectNoLimit a b states) ⟨Loaded.acceptStates base a.base b.base states, [], [1]⟩).map fun g =>
      NoLimit.copyCtor true base' { base := g.sc, actions := some (g.acts.set 0 (g.acts.length % 2 ^ 32)), compat := false }

/-! ### Saving, loading, mapping `NoGlueLimitCountingScanner` -/

open Io

/-- `Save`, pire/extra/count.cpp:1009-1018: the array has as many elements as its first one says. `none` = outside of the array is read. -/
def NoLimit.save (pad : Nat) (s : NoLimit) : Option Bytes :=
  match s.actions with
  | some l => (readIds l 0 (l.headD 0)).map fun x => s.base.save 5 pad ++ x.flatMap (le 4)
  | none => some (s.base.save 5 pad ++ le 4 0)

/-- The 4-byte numbers in the given bytes. -/
def words : Nat → Bytes → List Nat
  | 0, _ => []
  | n + 1, b => num (b.take 4) :: words n (b.drop 4)

/-- `Load`, pire/extra/count.cpp:1020-1040, into `self`: the compatibility flag is never cleared, and in compatibility mode `Actions` stays.
(After an exception `self` may have the new table already; this is not modelled.) -/
def NoLimit.load (self : NoLimit) (base : Nat) (b : Bytes) : Option (NoLimit × Bytes) :=
  (Loaded.load base b).bind fun r =>
    if r.1.2 = 5 then
      (Io.take 4 r.2).bind fun x =>
        let n := num x.1
        if n = 0 then some ({ self with base := r.1.1, actions := none }, x.2)
        else (Io.take (4 * (n - 1)) x.2).bind fun y => some ({ self with base := r.1.1, actions := some (n :: words (n - 1) y.1) }, y.2)
    else some ({ self with base := r.1.1, compat := true }, r.2)

/-- What `Mmap` can end with: an exception; a byte outside of the given range is read; the scanner and the returned pointer. -/
inductive MapResult
  | throws
  | overread
  | ok (s : NoLimit) (p : Nat)

/-- `Mmap`, pire/extra/count.cpp:1042-1061. Nothing is copied: `Actions` points into the memory, its contents are read when needed (here: the
list is what is there). The size of the array is not compared with the size of the input. -/
def NoLimit.mmap (mem : Mem) (ptr size : Nat) : MapResult :=
  match Loaded.mmap mem ptr size with
  | .throws => .throws
  | .ok s type p _ =>
    if type = 5 then
      if ptr + size < p + 4 then .overread
      else
        let n := num (Multi.memBytes mem p 4)
        if n = 0 then .ok { base := s, actions := none, compat := false } (p + 4)
        else .ok { base := s, actions := some (words n (Multi.memBytes mem p (4 * n))), compat := false } (p + 4 * n)
    else .ok { base := s, actions := none, compat := true } p

end Count
end Pire
