import Mathlib.Data.Nat.Notation

/-!
# What prefix and suffix searches should return

`acc k` says whether the first (or last) `k` characters are accepted, `n` is the number of characters, `none` is the null
pointer.
-/

namespace Pire.Spec

/-- `r` is the greatest accepted length, or null if there is none. -/
def Longest (acc : ℕ → Prop) (n : ℕ) (r : Option ℕ) : Prop :=
  match r with
  | none => ∀ k ≤ n, ¬ acc k
  | some k => k ≤ n ∧ acc k ∧ ∀ j ≤ n, k < j → ¬ acc j

/-- `r` is the least accepted length, or null if there is none. -/
def Shortest (acc : ℕ → Prop) (n : ℕ) (r : Option ℕ) : Prop :=
  match r with
  | none => ∀ k ≤ n, ¬ acc k
  | some k => k ≤ n ∧ acc k ∧ ∀ j < k, ¬ acc j

/-- `r` is some accepted length; null only if there is none. -/
def SomeAccepted (acc : ℕ → Prop) (n : ℕ) (r : Option ℕ) : Prop :=
  match r with
  | none => ∀ k ≤ n, ¬ acc k
  | some k => k ≤ n ∧ acc k

end Pire.Spec
