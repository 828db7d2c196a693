import Mathlib.Computability.Language

/-!
# Specification vocabulary: languages over the input letters

Nothing here mentions the model of the code.  A *letter* is one of the 263 values an automaton can read: the
256 bytes, the begin and end marks and the padding values of the letter table; 257 is the epsilon label and is
never read.  Languages are Mathlib's `Language Nat` (sets of lists), so `L * M` is concatenation, `L + M` union,
`KStar.kstar L` iteration, `L ^ n` the n-fold concatenation.
-/

namespace Pire.Spec

/-- The letters an automaton can read. -/
def IsLetter (c : Nat) : Prop := c < 264 ∧ c ≠ 257

instance (c : Nat) : Decidable (IsLetter c) := inferInstanceAs (Decidable (_ ∧ _))

/-- A word all of whose symbols are letters. -/
def IsWord (w : List Nat) : Prop := ∀ c ∈ w, IsLetter c

/-- All words. -/
def allWords : Language Nat := {w | IsWord w}

/-- The one-word language. -/
def single (w : List Nat) : Language Nat := {w}

/-- One byte, any. -/
def anyByte : Language Nat := {w | ∃ b, b < 256 ∧ w = [b]}

/-- Words outside of `L`. -/
def compl (L : Language Nat) : Language Nat := {w | IsWord w ∧ w ∉ L}

/-- Words in both. -/
def inter (L M : Language Nat) : Language Nat := {w | w ∈ L ∧ w ∈ M}

/-- Mirror images. -/
def mirror (L : Language Nat) : Language Nat := {w | w.reverse ∈ L}

/-- Prefixes of words of `L`. -/
def prefixes (L : Language Nat) : Language Nat := {u | ∃ v, u ++ v ∈ L}

/-- Suffixes of words of `L`. -/
def suffixes (L : Language Nat) : Language Nat := {v | ∃ u, u ++ v ∈ L}

/-- The finite language listing the given strings. -/
def oneOf (ss : List (List Nat)) : Language Nat := {w | w ∈ ss}

end Pire.Spec
