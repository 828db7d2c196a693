import Mathlib.Data.List.Infix

/-!
# What a counter shows

A counter sees a sequence of increments and resets; it shows the greatest number of increments in a stretch without resets.
-/

namespace Pire
namespace Spec

/-- What can happen to a counter. -/
inductive Op
  | inc
  | reset
deriving DecidableEq

/-- `k` is the greatest number of increments in a contiguous stretch of `ops` without resets. -/
def MaxRun (ops : List Op) (k : Nat) : Prop :=
  (∃ l, l <:+: ops ∧ Op.reset ∉ l ∧ l.length = k) ∧ ∀ l, l <:+: ops → Op.reset ∉ l → l.length ≤ k

/-- A deterministic machine that produces a number on every transition. -/
structure Machine where
  n : Nat
  q0 : Nat
  step : Nat → Nat → Nat
  out : Nat → Nat → Nat

/-- The numbers produced along a word. -/
def Machine.outs (M : Machine) : Nat → List Nat → List Nat
  | _, [] => []
  | q, c :: w => M.out q c :: M.outs (M.step q c) w

/-- What the numbers mean for the basic counting scanner: 3 (dead, matched) = increment, 1 (dead) = reset, anything else = nothing. -/
def basicOps (o : Nat) : List Op := if o = 3 then [.inc] else if o = 1 then [.reset] else []

/-- What the numbers mean for the advanced counting scanners: bit 1 = reset, bit 0 = increment (after the reset). -/
def advancedOps (o : Nat) : List Op := (if o.testBit 1 then [.reset] else []) ++ if o.testBit 0 then [.inc] else []

end Spec
end Pire
