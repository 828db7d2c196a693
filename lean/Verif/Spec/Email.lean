import Verif.Spec.Lang

/-!
# The addresses that samples/inline/validator.cpp takes for valid (C73)

Nothing here mentions the model of the code.
-/

namespace Pire.Spec

/-- A small Latin letter. -/
def SmallLetter (c : Nat) : Prop := 97 ≤ c ∧ c ≤ 122

/-- A small letter, a digit or a dash. -/
def HostChar (c : Nat) : Prop := SmallLetter c ∨ (48 ≤ c ∧ c ≤ 57) ∨ c = 45

/-- A small letter, a digit, a dash, a dot or an underscore. -/
def NameChar (c : Nat) : Prop := HostChar c ∨ c = 46 ∨ c = 95

/-- One or more labels, each with a dot behind it. -/
inductive Labels : List Nat → Prop
  | one {l : List Nat} : l ≠ [] → (∀ c ∈ l, HostChar c) → Labels (l ++ [46])
  | more {l s : List Nat} : l ≠ [] → (∀ c ∈ l, HostChar c) → Labels s → Labels (l ++ 46 :: s)

/-- A name, `@`, labels, and at least two small letters. -/
def IsEmail (w : List Nat) : Prop :=
  ∃ name labels top, w = name ++ 64 :: (labels ++ top) ∧ name ≠ [] ∧ (∀ c ∈ name, NameChar c) ∧ Labels labels ∧ 2 ≤ top.length ∧ ∀ c ∈ top, SmallLetter c

end Pire.Spec
