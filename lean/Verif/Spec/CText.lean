import Verif.Model.Basic

/-!
# String literals and comments of C++

What a C++ compiler makes of the texts `pire_inline` reads and writes. Characters are bytes.
-/

namespace Pire.Spec

/-- The digits of octal numbers. -/
def IsOct (c : Nat) : Prop := 48 ≤ c ∧ c ≤ 55

/-- The digits of hexadecimal numbers and their values. -/
def hexValue (c : Nat) : Option Nat :=
  if 48 ≤ c ∧ c ≤ 57 then some (c - 48) else if 65 ≤ c ∧ c ≤ 70 then some (c - 55) else if 97 ≤ c ∧ c ≤ 102 then some (c - 87) else none

/-- The value of a number written with base `b`, the first digit being the most significant one. -/
def inBase (b : Nat) (ds : List Nat) : Nat := ds.foldl (fun n d => n * b + d) 0

/-- The escape sequences `\'`, `\"`, `\\`, `\n`, `\t` and what they stand for. -/
inductive Simple : Nat → Nat → Prop
  | quote : Simple 39 39
  | dquote : Simple 34 34
  | backslash : Simple 92 92
  | newline : Simple 110 10
  | tab : Simple 116 9

/-- `Chars num s v`: between quotation marks the characters `s` stand for the bytes `v`; `num`: octal and hexadecimal escape sequences may occur. An octal one
has up to three digits, a hexadecimal one as many as there are. -/
inductive Chars (num : Bool) : List Nat → List Nat → Prop
  | nil : Chars num [] []
  | plain {c : Nat} {s v : List Nat} : c ≠ 34 → c ≠ 92 → c ≠ 10 → c ≠ 0 → Chars num s v → Chars num (c :: s) (c :: v)
  | simple {c b : Nat} {s v : List Nat} : Simple c b → Chars num s v → Chars num (92 :: c :: s) (b :: v)
  | octal {ds s v : List Nat} : num = true → ds ≠ [] → ds.length ≤ 3 → (∀ d ∈ ds, IsOct d) → (ds.length = 3 ∨ ∀ c, s.head? = some c → ¬ IsOct c) →
      inBase 8 (ds.map (· - 48)) < 256 → Chars num s v → Chars num (92 :: (ds ++ s)) (inBase 8 (ds.map (· - 48)) :: v)
  | hex {ds xs s v : List Nat} : num = true → ds ≠ [] → ds.map hexValue = xs.map some → (∀ c, s.head? = some c → hexValue c = none) →
      inBase 16 xs < 256 → Chars num s v → Chars num (92 :: 120 :: (ds ++ s)) (inBase 16 xs :: v)

/-- White space. -/
def White (s : List Nat) : Prop := ∀ c ∈ s, c = 32 ∨ c = 9 ∨ c = 10

/-- String literals one after the other stand for their characters one after the other. -/
inductive Literals : List Nat → List Nat → Prop
  | one {s v : List Nat} : Chars true s v → Literals (34 :: (s ++ [34])) v
  | more {s v w t u : List Nat} : Chars true s v → White w → Literals t u → Literals (34 :: (s ++ 34 :: (w ++ t))) (v ++ u)

/-- An argument written with string literals of printable characters and simple escape sequences, none of them with a backslash at its end. -/
inductive Arg : List Nat → List Nat → Prop
  | blank {w : List Nat} : White w → Arg w []
  | text {w s v t u : List Nat} : White w → Chars false s v → s.getLast? ≠ some 92 → Arg t u → Arg (w ++ 34 :: (s ++ 34 :: t)) (v ++ u)

/-- Arguments separated by commas, and a closing parenthesis. -/
inductive Args : List Nat → List (List Nat) → Prop
  | last {t v : List Nat} : Arg t v → Args (t ++ [41]) [v]
  | more {t v t' : List Nat} {vs : List (List Nat)} : Arg t v → Args t' vs → Args (t ++ 44 :: t') (v :: vs)

/-- A comment to the end of the line, and string literals. -/
def Commented (text v : List Nat) : Prop := ∃ c w t, 10 ∉ c ∧ White w ∧ Literals t v ∧ text = 47 :: 47 :: (c ++ 10 :: (w ++ t))

end Pire.Spec
