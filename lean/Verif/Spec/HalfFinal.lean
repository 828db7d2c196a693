import Verif.Spec.Lang
import Mathlib.Data.List.Infix

/-!
# Counting positions and occurrences in a text
-/

namespace Pire.Spec

open Classical in
/-- The number of prefixes of `w`, the empty one and `w` itself included, that belong to `L`. -/
noncomputable def positions (L : Language Nat) (w : List Nat) : Nat := (w.inits.filter fun u => decide (u ∈ L)).length

/-- The words that end with a word of `L`. -/
def ends (L : Language Nat) : Language Nat := {w | ∃ x l, l ∈ L ∧ w = x ++ l}

/-- The words of `L` none of whose proper prefixes belongs to `L`. -/
def firsts (L : Language Nat) : Language Nat := {w | w ∈ L ∧ ∀ u, u <+: w → u ∈ L → u = w}

/-- `w` contains `k` occurrences of words of `L` that do not overlap: `w = x₁ l₁ x₂ l₂ … xₖ lₖ rest`. -/
def Occurrences (L : Language Nat) (w : List Nat) (k : Nat) : Prop :=
  ∃ ps : List (List Nat × List Nat), ps.length = k ∧ (∀ p ∈ ps, p.2 ∈ L) ∧ ∃ rest, w = (ps.flatMap fun p => p.1 ++ p.2) ++ rest

/-- `L` contains every continuation of each of its words. -/
def Extensible (L : Language Nat) : Prop := ∀ u v, u ∈ L → IsWord v → u ++ v ∈ L

end Pire.Spec
