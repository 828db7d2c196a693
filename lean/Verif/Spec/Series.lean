import Verif.Spec.Lang
import Mathlib.Data.List.Infix

/-!
# Series of matches

What the advanced counting scanners are meant to count: matches of `re` that follow one another with nothing but a match of `sep` between them.
-/

namespace Pire
namespace Spec

/-- The word consists of `k` matches of `re`, with matches of `sep` between them. -/
inductive Series (re sep : Language Nat) : Nat → List Nat → Prop
  | one {w : List Nat} : w ∈ re → Series re sep 1 w
  | more {k : Nat} {u s w : List Nat} : Series re sep k u → s ∈ sep → w ∈ re → Series re sep (k + 1) (u ++ s ++ w)

/-- Somewhere in the text there is a series of `k` matches (none is always there). -/
def HasSeries (re sep : Language Nat) (t : List Nat) (k : Nat) : Prop := k = 0 ∨ ∃ u, u <:+: t ∧ Series re sep k u

/-- The longest series in the text consists of `k` matches. -/
def LongestSeries (re sep : Language Nat) (t : List Nat) (k : Nat) : Prop := HasSeries re sep t k ∧ ∀ j, HasSeries re sep t j → j ≤ k

/-- The character occurs in words of the language. -/
def Occurs (L : Language Nat) (c : Nat) : Prop := ∃ w ∈ L, c ∈ w

/-- The two languages have no characters in common, and neither has the empty word. -/
structure Apart (re sep : Language Nat) : Prop where
  apart : ∀ c, Occurs re c → ¬ Occurs sep c
  re : [] ∉ re
  sep : [] ∉ sep

end Spec
end Pire
