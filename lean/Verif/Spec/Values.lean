import Mathlib.Logic.Function.Basic

/-!
# Variables that hold a value of any type, or nothing (C75)

`Ty` are the types, `V` the values. Nothing here mentions the model of the code.
-/

namespace Pire.Spec

/-- What a program does with such variables. `fails`: the system has no memory left when this is done. -/
inductive AnyOp (Ty V : Type)
  /-- `Any v;` -/
  | declare (v : Nat)
  /-- `Any v(x);` with `x` of type `t` -/
  | hold (v : Nat) (t : Ty) (x : V) (fails : Bool)
  /-- `Any v(u);` -/
  | copy (v u : Nat) (fails : Bool)
  /-- `v = u;` -/
  | assign (v u : Nat) (fails : Bool)
  /-- `v = x;` with `x` of type `t` -/
  | assignValue (v : Nat) (t : Ty) (x : V) (fails : Bool)
  /-- `v.Swap(u);` -/
  | swap (v u : Nat)
  /-- `v.As<t>() = x;` -/
  | set (v : Nat) (t : Ty) (x : V)
  /-- `v` goes out of scope -/
  | leave (v : Nat)

/-- The contents of the variables: `none` if there is no such variable, `some none` if it is empty. -/
abbrev Contents (Ty V : Type) := Nat → Option (Option (Ty × V))

variable {Ty V : Type} [DecidableEq Ty]

/-- What the program should do to the contents; `false`: it throws an exception. `none`: the program is wrong, as it uses a variable that does not exist or declares one twice. -/
def Contents.act (c : Contents Ty V) : AnyOp Ty V → Option (Bool × Contents Ty V)
  | .declare v => if c v = none then some (true, Function.update c v (some none)) else none
  | .hold v t x fails =>
    if c v = none then some (if fails then (false, c) else (true, Function.update c v (some (some (t, x))))) else none
  | .copy v u fails =>
    match c v, c u with
    | none, some none => some (true, Function.update c v (some none))
    | none, some (some x) => some (if fails then (false, c) else (true, Function.update c v (some (some x))))
    | _, _ => none
  | .assign v u fails =>
    match c v, c u with
    | some _, some none => some (true, Function.update c v (some none))
    | some _, some (some x) => some (if fails then (false, c) else (true, Function.update c v (some (some x))))
    | _, _ => none
  | .assignValue v t x fails =>
    match c v with
    | some _ => some (if fails then (false, c) else (true, Function.update c v (some (some (t, x)))))
    | none => none
  | .swap v u =>
    match c v, c u with
    | some a, some b => some (true, Function.update (Function.update c v (some b)) u (some a))
    | _, _ => none
  | .set v t x =>
    match c v with
    | some (some (t', _)) => some (if t' = t then (true, Function.update c v (some (some (t, x)))) else (false, c))
    | some none => some (false, c)
    | none => none
  | .leave v =>
    match c v with
    | some _ => some (true, Function.update c v none)
    | none => none

/-- A whole program that catches its exceptions: which operations have succeeded, and the contents at the end. -/
def Contents.acts (c : Contents Ty V) : List (AnyOp Ty V) → Option (List Bool × Contents Ty V)
  | [] => some ([], c)
  | o :: l =>
    match c.act o with
    | none => none
    | some (b, c) => (c.acts l).map fun r => (b :: r.1, r.2)

end Pire.Spec
