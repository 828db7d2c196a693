import Verif.Spec.Lang

/-!
# Edits

`Edits swaps tail k u w`: `k` operations turn the word `u` into `w`, reading both from left to right. An operation replaces a letter,
drops one, adds one or, if `swaps`, exchanges two neighbours (each letter takes part in at most one operation). Unless `tail`, no letters
are added behind the last letter of `u`.
-/

namespace Pire.Spec

inductive Edits (swaps tail : Bool) : Nat → List Nat → List Nat → Prop
  | done : Edits swaps tail 0 [] []
  | keep {k u w} (c : Nat) : Edits swaps tail k u w → Edits swaps tail k (c :: u) (c :: w)
  | replace {k u w} (c c' : Nat) : Edits swaps tail k u w → Edits swaps tail (k + 1) (c :: u) (c' :: w)
  | drop {k u w} (c : Nat) : Edits swaps tail k u w → Edits swaps tail (k + 1) (c :: u) w
  | add {k u w} (c : Nat) : (tail = true ∨ u ≠ []) → Edits swaps tail k u w → Edits swaps tail (k + 1) u (c :: w)
  | swap {k u w} (a b : Nat) : swaps = true → Edits swaps tail k u w → Edits swaps tail (k + 1) (a :: b :: u) (b :: a :: w)

/-- The edit distance of Levenshtein, by the recursion of Wagner and Fischer. -/
def levenshtein : List Nat → List Nat → Nat
  | [], w => w.length
  | u, [] => u.length
  | a :: u, b :: w =>
    min (levenshtein u (b :: w) + 1) (min (levenshtein (a :: u) w + 1) (levenshtein u w + if a = b then 0 else 1))
termination_by u w => u.length + w.length

/-- The words at most `d` edits away from the language. -/
def Near (swaps tail : Bool) (d : Nat) (L : Language Nat) : Language Nat := {w | ∃ u ∈ L, ∃ k ≤ d, Edits swaps tail k u w}

end Pire.Spec
