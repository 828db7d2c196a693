import Verif.Spec.Values

/-!
# `Any` — pire/any.h

A variable is a `unique_ptr` to a `Holder` on the heap, which has the type and the value.
-/

namespace Pire.AnyBox

open Pire.Spec

variable {Ty V : Type} [DecidableEq Ty]

/-- The holders on the heap, and the variables: `none` if there is no such variable, `some none` for a null pointer, pire/any.h:98-120. Pointers are not used again. -/
structure World (Ty V : Type) where
  cells : Nat → Option (Ty × V)
  fresh : Nat
  vars : Nat → Option (Option Nat)

/-- The outcome of an operation; `bad`: a null or dangling pointer has been used or one deleted twice. -/
inductive Did (Ty V : Type)
  | ok (w : World Ty V)
  | throws (w : World Ty V)
  | bad

/-- `new Holder<T>(x)`; the pointer is the old `fresh`. -/
def World.new (w : World Ty V) (x : Ty × V) : World Ty V := { w with cells := Function.update w.cells w.fresh (some x), fresh := w.fresh + 1 }

/-- The destructor of the `unique_ptr`. -/
def World.free (w : World Ty V) : Option Nat → Did Ty V
  | none => .ok w
  | some a =>
    match w.cells a with
    | none => .bad
    | some _ => .ok { w with cells := Function.update w.cells a none }

/-- The copy constructor, pire/any.h:39-43, and `Duplicate`, 104-106: what becomes of the copy of a pointer is given to `k`. -/
def World.duplicate (w : World Ty V) (h : Option Nat) (fails : Bool) (k : World Ty V → Option Nat → Did Ty V) : Did Ty V :=
  match h with
  | none => k w none
  | some a =>
    match w.cells a with
    | none => .bad
    | some x => if fails then .throws w else k (w.new x) (some w.fresh)

/-- `operator=`, pire/any.h:45-49: the parameter `h` and the variable are swapped, and the parameter is destroyed. -/
def World.assign (w : World Ty V) (v : Nat) (old h : Option Nat) : Did Ty V :=
  { w with vars := Function.update w.vars v (some h) }.free old

/-- `IsA`, pire/any.h:60-63, 107-109; `none`: the pointer is dangling. -/
def World.isA (w : World Ty V) (h : Option Nat) (t : Ty) : Option Bool :=
  match h with
  | none => some false
  | some a =>
    match w.cells a with
    | none => none
    | some x => some (decide (x.1 = t))

/-- `Empty`, pire/any.h:57-59. -/
def empty (h : Option Nat) : Bool := h.isNone

/-- One operation, pire/any.h:37-85, 120. `none`: the program is wrong, as in the specification. -/
def World.step (w : World Ty V) : AnyOp Ty V → Option (Did Ty V)
  | .declare v =>
    match w.vars v with
    | none => some (.ok { w with vars := Function.update w.vars v (some none) })
    | some _ => none
  | .hold v t x fails =>
    match w.vars v with
    | none => some (if fails then .throws w else .ok { w.new (t, x) with vars := Function.update w.vars v (some (some w.fresh)) })
    | some _ => none
  | .copy v u fails =>
    match w.vars v, w.vars u with
    | none, some h => some (w.duplicate h fails fun w h' => .ok { w with vars := Function.update w.vars v (some h') })
    | _, _ => none
  | .assign v u fails =>
    match w.vars v, w.vars u with
    | some old, some h => some (w.duplicate h fails fun w h' => w.assign v old h')
    | _, _ => none
  | .assignValue v t x fails =>
    match w.vars v with
    | some old => some (if fails then .throws w else (w.new (t, x)).assign v old (some w.fresh))
    | none => none
  | .swap v u =>
    match w.vars v, w.vars u with
    | some a, some b => some (.ok { w with vars := Function.update (Function.update w.vars v (some b)) u (some a) })
    | _, _ => none
  | .set v t x =>
    match w.vars v with
    | none => none
    | some h =>
      match w.isA h t, h with
      | none, _ => some .bad
      | some true, some a => some (.ok { w with cells := Function.update w.cells a (some (t, x)) })
      | some _, _ => some (.throws w)
  | .leave v =>
    match w.vars v with
    | none => none
    | some h => some ({ w with vars := Function.update w.vars v none }.free h)

/-- A whole program that catches its exceptions: which operations have succeeded. The inner `none` is undefined behaviour, the outer one a wrong program. -/
def World.steps (w : World Ty V) : List (AnyOp Ty V) → Option (Option (List Bool × World Ty V))
  | [] => some (some ([], w))
  | o :: l =>
    match w.step o with
    | none => none
    | some .bad => some none
    | some (.ok w) => (w.steps l).map fun r => r.map fun r => (true :: r.1, r.2)
    | some (.throws w) => (w.steps l).map fun r => r.map fun r => (false :: r.1, r.2)

/-- No variables, no holders. -/
def World.start : World Ty V := ⟨fun _ => none, 0, fun _ => none⟩

end Pire.AnyBox
