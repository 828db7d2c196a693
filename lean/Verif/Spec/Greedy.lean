import Verif.Spec.Lang

/-!
# Greedy matching: the longest match at the first place where there is one
-/

namespace Pire.Spec

/-- `u` is the longest nonempty beginning of `w` that belongs to `L`. -/
def LongestMatch (L : Language Nat) (w u : List Nat) : Prop :=
  u ≠ [] ∧ u <+: w ∧ u ∈ L ∧ ∀ u', u' <+: w → u' ∈ L → u'.length ≤ u.length

/-- No nonempty beginning of `w` belongs to `L`. -/
def NoMatch (L : Language Nat) (w : List Nat) : Prop := ∀ u, u ≠ [] → u <+: w → u ∉ L

/-- `GreedyMatches L w k`: a scan of `w` from left to right finds `k` matches, if at each place the longest match is taken and the scan
goes on behind it; where nothing matches, one character is skipped. -/
inductive GreedyMatches (L : Language Nat) : List Nat → Nat → Prop
  | done : GreedyMatches L [] 0
  | skip {c : Nat} {w : List Nat} {k : Nat} : NoMatch L (c :: w) → GreedyMatches L w k → GreedyMatches L (c :: w) k
  | take {u v : List Nat} {k : Nat} : LongestMatch L (u ++ v) u → GreedyMatches L v k → GreedyMatches L (u ++ v) (k + 1)

/-- `x` is the beginning of a word of `L`. -/
def Viable (L : Language Nat) (x : List Nat) : Prop := ∃ v, x ++ v ∈ L

/-- A scan of `x` finds `j` matches that do not begin where `x` begins. -/
def LaterMatches (L : Language Nat) (x : List Nat) (j : Nat) : Prop :=
  (∃ u v, x = u ++ v ∧ LongestMatch L x u ∧ GreedyMatches L v j) ∨ (NoMatch L x ∧ GreedyMatches L x.tail j)

/-- As long as the beginning of a match may still become a match, or a longer one, less than `d` matches are found behind it. -/
def WithinDepth (L : Language Nat) (d : Nat) : Prop := ∀ x j, Viable L x → LaterMatches L x j → j < d

/-- If a match becomes longer, no other match has been found behind it in the meantime. -/
def NoSwallowing (L : Language Nat) : Prop :=
  ∀ x c j, x ++ [c] ∈ L → ¬ NoMatch L x → LaterMatches L x j → j = 0

/-- What may follow a nonempty beginning of a match is not the same as what may match. -/
def NoReturn (L : Language Nat) : Prop := ∀ x, x ≠ [] → Viable L x → ∃ v, ¬ (x ++ v ∈ L ↔ v ∈ L)

end Pire.Spec
