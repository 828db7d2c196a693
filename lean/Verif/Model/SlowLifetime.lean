import Verif.Model.CaptureIo

/-!
# `SlowScanner` objects: who owns which memory — pire/scanners/slow.h

`SlowScanner` and `SlowCapturingScanner` (which has no fields of its own) own their tables in another way than the other scanners: arrays of letters and of final
states are allocated with `malloc` and listed in `m_pool`, jumps are in the member vector `m_vec`, and `m_vecptr` points to a `m_vec`: to the object's own one, to that
of the static empty scanner, or nowhere. Here many such objects live in one memory. Arrays are the units of memory; an array that has been freed cannot be read.
-/

namespace Pire
namespace SlowLife
open Capture

/-- An array in memory. -/
inductive Arr
  | bools (l : List Bool)
  | nums (l : List Nat)

/-- Where `m_vecptr` points: nowhere, to `m_vec` of a variable, to `m_vec` of the static empty scanner. -/
inductive VecPtr
  | null
  | own (v : Nat)
  | static
deriving DecidableEq

/-- All fields of `SlowScanner`, slow.h:341-363; pointers are addresses of arrays, `none` is null. -/
structure Obj where
  statesCount : Nat
  lettersCount : Nat
  start : Nat
  finals : Nat
  letters : Nat
  jumps : Option Nat
  actions : Option Nat
  jumpPos : Option Nat
  pool : List Nat
  vec : List (List Nat)
  vecptr : VecPtr
  needActions : Bool
  actionsVec : List (List Nat)

/-- The arrays that `malloc` has given and `free` has not taken back, the mapped arrays, the static empty scanner `Null()`, the variables that exist. -/
structure World where
  heap : Nat → Option Arr
  mapped : Nat → Option Arr
  static : Obj
  vars : Nat → Option Obj

namespace World

/-- Reading an array. `none`: there is no array. -/
def look (w : World) (a : Nat) : Option Arr := (w.heap a).or (w.mapped a)

/-- Reading numbers. -/
def nums (w : World) (a : Nat) : Option (List Nat) :=
  match w.look a with
  | some (.nums l) => some l
  | _ => none

/-- Reading flags. -/
def bools (w : World) (a : Nat) : Option (List Bool) :=
  match w.look a with
  | some (.bools l) => some l
  | _ => none

/-- The jumps as `Next` finds them, slow.h:108-120. -/
def jumpsOf (w : World) (o : Obj) : Option Jumps :=
  match o.vecptr with
  | .own u => (w.vars u).map fun p => .vecs p.vec
  | .static => some (.vecs w.static.vec)
  | .null =>
    match o.jumpPos, o.jumps with
    | none, none => some .null
    | some p, some j => (w.nums p).bind fun p => (w.nums j).map fun j => .flat p j
    | _, _ => none

/-- What somebody who uses the object finds behind its pointers. `none`: a pointer leads to what does not exist any more. -/
def viewObj (w : World) (o : Obj) : Option SlowCap :=
  (w.bools o.finals).bind fun finals => (w.nums o.letters).bind fun letters => (w.jumpsOf o).bind fun jumps =>
    (match o.actions with | none => some none | some a => (w.nums a).map some).map fun actions =>
      { base := { statesCount := o.statesCount, lettersCount := o.lettersCount, start := o.start, finals := finals, letters := letters, vec := o.vec,
                  jumps := jumps, empty := o.finals == w.static.finals }
        needActions := o.needActions
        actionsVec := o.actionsVec
        actions := actions }

/-- What somebody who uses the variable finds. -/
def view (w : World) (v : Nat) : Option SlowCap := (w.vars v).bind w.viewObj

end World

/-- What a program can do with variables. -/
inductive Op
  /-- `SlowScanner(needActions)`, slow.h:76-79: `Alias(Null())`, 372-385; `SlowCapturingScanner()`, capture.h:572-574. -/
  | default (v : Nat) (needActions : Bool)
  /-- The constructors with an `Fsm`, slow.h:252-283, capture.h:577-580, and the local scanner in `Load`, pire/scanner_io.cpp:112-170: `m_vec` is filled, the letters
  are allocated at `a`, the final states at `b`. `x` is what gets built. -/
  | make (v : Nat) (x : SlowCap) (a b : Nat)
  /-- The local scanner in `Mmap`, slow.h:173-201: letters, final states, positions, jumps and actions are at the given places in mapped memory. -/
  | attach (v : Nat) (x : SlowCap) (letters finals jumpPos jumps : Nat) (actions : Option Nat)
  /-- The copy constructor, slow.h:225-250; `a` and `b` are the new arrays if there are any. -/
  | copy (v u a b : Nat)
  /-- `Swap`, slow.h:203-223. -/
  | swap (v u : Nat)
  /-- The destructor, slow.h:287-291. -/
  | destroy (v : Nat)
  /-- An array gets mapped. -/
  | map (a : Nat) (x : Arr)
  /-- An array is unmapped. -/
  | unmap (a : Nat)

/-- `Alias`, slow.h:372-385, of the static scanner, in a new object; then slow.h:78. -/
def aliasOf (s : Obj) (needActions : Bool) : Obj := { s with vec := [], needActions := needActions, actionsVec := [], pool := [] }

/-- `free` for all elements of `m_pool`, slow.h:289-290. `none`: there is nothing to free. -/
def freeAll (heap : Nat → Option Arr) (pool : List Nat) : Option (Nat → Option Arr) :=
  pool.foldlM (fun h a => if (h a).isSome then some (Function.update h a none) else none) heap

/-- `m_vecptr` after `Swap`: if it points to the vector of the scanner the fields come from, it is corrected, slow.h:219-222. -/
def VecPtr.moved (p : VecPtr) (src dst : Nat) : VecPtr := if p = .own src then .own dst else p

/-- What an operation does. `none`: an array that does not exist is read or freed. -/
def step (w : World) : Op → Option World
  | .default v n => some { w with vars := Function.update w.vars v (some (aliasOf w.static n)) }
  | .make v x a b => some { w with
      heap := Function.update (Function.update w.heap a (some (.nums x.base.letters))) b (some (.bools x.base.finals))
      vars := Function.update w.vars v (some {
        statesCount := x.base.statesCount, lettersCount := x.base.lettersCount, start := x.base.start, finals := b, letters := a, jumps := none, actions := none,
        jumpPos := none, pool := [a, b], vec := x.base.vec, vecptr := .own v, needActions := x.needActions, actionsVec := x.actionsVec }) }
  | .attach v x l f p j a => some { w with
      vars := Function.update w.vars v (some {
        statesCount := x.base.statesCount, lettersCount := x.base.lettersCount, start := x.base.start, finals := f, letters := l, jumps := some j, actions := a,
        jumpPos := some p, pool := [], vec := [], vecptr := .null, needActions := x.needActions, actionsVec := [] }) }
  | .copy v u a b => (w.vars u).bind fun o =>
      if o.vec = [] then some { w with vars := Function.update w.vars v (some { o with pool := [], vecptr := .null }) }
      else (w.nums o.letters).bind fun l => (w.bools o.finals).bind fun f =>
        if MaxChar ≤ l.length ∧ o.statesCount ≤ f.length then some { w with
          heap := Function.update (Function.update w.heap a (some (.nums (l.take MaxChar)))) b (some (.bools (f.take o.statesCount)))
          vars := Function.update w.vars v (some
            { o with letters := a, finals := b, jumps := none, jumpPos := none, actions := none, pool := [a, b], vecptr := .own v }) }
        else none
  | .swap v u => (w.vars v).bind fun o1 => (w.vars u).map fun o2 => { w with
      vars := Function.update (Function.update w.vars v (some { o2 with vecptr := o2.vecptr.moved u v })) u (some { o1 with vecptr := o1.vecptr.moved v u }) }
  | .destroy v => (w.vars v).bind fun o => (freeAll w.heap o.pool).map fun h => { w with heap := h, vars := Function.update w.vars v none }
  | .map a x => some { w with mapped := Function.update w.mapped a (some x) }
  | .unmap a => some { w with mapped := Function.update w.mapped a none }

/-- One operation after another. -/
def run (w : World) (ops : List Op) : Option World := ops.foldlM step w

/-! Operations that are made of these, with the local variable `t`. -/

/-- `operator =`, slow.h:285: `SlowScanner(s).Swap(*this)`. -/
def assign (t v u a b : Nat) : List Op := [.copy t u a b, .swap t v, .destroy t]

/-- `Load`, pire/scanner_io.cpp:112-170: a local scanner is filled (or stays an alias of `Null()`), swapped with `*this` and destroyed. -/
def loadInto (t v : Nat) (x : SlowCap) (a b : Nat) : List Op := [.make t x a b, .swap t v, .destroy t]

/-- `Load` of an empty scanner: `Alias(Null())` also clears `need_actions`, slow.h:376. -/
def loadEmpty (t v : Nat) : List Op := [.default t false, .swap t v, .destroy t]

/-- `Mmap`, slow.h:173-201, unless the scanner is empty (then nothing happens). -/
def mmapInto (t v : Nat) (x : SlowCap) (l f p j : Nat) (a : Option Nat) : List Op := [.attach t x l f p j a, .swap t v, .destroy t]

end SlowLife
end Pire
