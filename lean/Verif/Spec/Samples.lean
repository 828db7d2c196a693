import Verif.Spec.Lang

/-!
# The sample programs (C71): lines, words, and the addresses on a blacklist

Nothing here mentions the model of the code.
-/

namespace Pire.Spec

/-- A text that consists of these lines; the last one need not end with a line break. -/
inductive Lines : List Nat → List (List Nat) → Prop
  | nil : Lines [] []
  | last {l : List Nat} : l ≠ [] → 10 ∉ l → Lines l [l]
  | line {l s : List Nat} {ls : List (List Nat)} : 10 ∉ l → Lines s ls → Lines (l ++ 10 :: s) (l :: ls)

/-- White space: blanks, tabs, line breaks and so on. -/
def IsBlank (c : Nat) : Prop := c = 32 ∨ (9 ≤ c ∧ c ≤ 13)

/-- A text that consists of these words, separated by white space. -/
inductive Words : List Nat → List (List Nat) → Prop
  | blank {s : List Nat} : (∀ c ∈ s, IsBlank c) → Words s []
  | last {b w : List Nat} : (∀ c ∈ b, IsBlank c) → w ≠ [] → (∀ c ∈ w, ¬ IsBlank c) → Words (b ++ w) [w]
  | word {b w s : List Nat} {c : Nat} {ws : List (List Nat)} : (∀ c ∈ b, IsBlank c) → w ≠ [] → (∀ c ∈ w, ¬ IsBlank c) → IsBlank c → Words (c :: s) ws →
      Words (b ++ w ++ c :: s) (w :: ws)

/-- Lower case letters and `://`, or nothing. -/
inductive Scheme : List Nat → Prop
  | none : Scheme []
  | some {l : List Nat} : l ≠ [] → (∀ c ∈ l, 97 ≤ c ∧ c ≤ 122) → Scheme (l ++ [58, 47, 47])

/-- Letters, digits and dashes. -/
def LabelChar (c : Nat) : Prop := (65 ≤ c ∧ c ≤ 90) ∨ (97 ≤ c ∧ c ≤ 122) ∨ (48 ≤ c ∧ c ≤ 57) ∨ c = 45

/-- Labels, each with a dot behind it. -/
inductive Subdomains : List Nat → Prop
  | none : Subdomains []
  | label {l s : List Nat} : l ≠ [] → (∀ c ∈ l, LabelChar c) → Subdomains s → Subdomains (l ++ 46 :: s)

/-- A slash and anything, or nothing. -/
inductive Path : List Nat → Prop
  | none : Path []
  | some (s : List Nat) : Path (47 :: s)

/-- An address in one of the domains. -/
def Listed (domains : List (List Nat)) (url : List Nat) : Prop :=
  ∃ scheme subs domain path, url = scheme ++ subs ++ domain ++ path ∧ Scheme scheme ∧ Subdomains subs ∧ domain ∈ domains ∧ Path path

end Pire.Spec
