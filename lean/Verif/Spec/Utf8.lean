import Verif.Spec.Lang

/-!
# UTF-8 (C38, C39)

The textbook encoding by arithmetic, and the shape of a byte string that encodes one character (overlong forms
included: the standard forbids them, the library accepts them).  Nothing here mentions the model of the code.
-/

namespace Pire.Spec

/-- The UTF-8 encoding of a code point below 0x200000. -/
def utf8 (c : Nat) : List Nat :=
  if c < 0x80 then [c]
  else if c < 0x800 then [0xC0 + c / 64, 0x80 + c % 64]
  else if c < 0x10000 then [0xE0 + c / 4096, 0x80 + c / 64 % 64, 0x80 + c % 64]
  else [0xF0 + c / 262144, 0x80 + c / 4096 % 64, 0x80 + c / 64 % 64, 0x80 + c % 64]

/-- A continuation byte. -/
def IsCont (b : Nat) : Prop := 0x80 ≤ b ∧ b < 0xC0

/-- A lead byte followed by as many continuation bytes as it announces, and what they encode. -/
inductive Utf8Char : List Nat → Nat → Prop
  | one {a} : a < 0x80 → Utf8Char [a] a
  | two {a b} : 0xC0 ≤ a → a < 0xE0 → IsCont b → Utf8Char [a, b] ((a - 0xC0) * 64 + (b - 0x80))
  | three {a b c} : 0xE0 ≤ a → a < 0xF0 → IsCont b → IsCont c →
      Utf8Char [a, b, c] ((a - 0xE0) * 4096 + (b - 0x80) * 64 + (c - 0x80))
  | four {a b c d} : 0xF0 ≤ a → a < 0xF8 → IsCont b → IsCont c → IsCont d →
      Utf8Char [a, b, c, d] ((a - 0xF0) * 262144 + (b - 0x80) * 4096 + (c - 0x80) * 64 + (d - 0x80))

/-- One character in UTF-8. -/
def utf8Dot : Language Nat := {w | ∃ c, Utf8Char w c}

end Pire.Spec
