import Mathlib.Data.Nat.Bitwise
import Mathlib.Data.List.Infix
import Mathlib.Data.List.Basic

/-!
# What a capture is

A capturing scanner sees an action with every letter: bit 0 says that the capture begins, bit 1 that it ends.
-/

namespace Pire
namespace Spec

/-! ### The deterministic scanner: one history of actions -/

/-- The `i`-th action says "begin". -/
def BeginsAt (as : List Nat) (i : Nat) : Prop := ∃ a, as[i]? = some a ∧ a.testBit 0 = true
/-- The `i`-th action says "end" (an action that says both is a "begin"). -/
def EndsAt (as : List Nat) (i : Nat) : Prop := ∃ a, as[i]? = some a ∧ a.testBit 1 = true ∧ a.testBit 0 = false

/-- Among the first `k` actions there is a "begin" and an "end". -/
def DoneBy (as : List Nat) (k : Nat) : Prop := (∃ i < k, BeginsAt as i) ∧ ∃ i < k, EndsAt as i

/-- `x` is the last position with `P` at which the capture was not done yet; `none`: there is no such position. -/
def LastOpen (as : List Nat) (P : Nat → Prop) : Option Nat → Prop
  | none => ∀ i, P i → DoneBy as i
  | some x => P x ∧ ¬ DoneBy as x ∧ ∀ i, P i → x < i → DoneBy as i

/-! ### The nondeterministic scanner: many histories at once -/

/-- A way to read a text: it starts in one of the states `S` by reading the begin mark (258), follows the edges `E`, epsilon (257) reads nothing. The last
argument lists the actions `A` it met, with the number of letters of the text read by then. -/
inductive Thread (E : Nat → Nat → Nat → Prop) (A : Nat → Nat → Nat) (S : Nat → Prop) : List Nat → Nat → List (Nat × Nat) → Prop
  | start {r p} : S r → E r 258 p → Thread E A S [] p [(0, A r p)]
  | eps {w q tr p} : Thread E A S w q tr → E q 257 p → Thread E A S w p (tr ++ [(w.length, A q p)])
  | step {w q tr c p} : Thread E A S w q tr → c ≠ 257 → E q c p → Thread E A S (w ++ [c]) p (tr ++ [(w.length + 1, A q p)])

/-- The first position in a history whose action has the given bit. -/
def firstWith (bit : Nat) (tr : List (Nat × Nat)) : Option Nat := (tr.find? fun x => x.2.testBit bit).map Prod.fst

end Spec
end Pire
