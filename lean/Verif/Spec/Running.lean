import Verif.Model.RunMulti
import Verif.Spec.Search
import Verif.Spec.Lang

/-!
# What running a scanner means

Feeding the characters one at a time with `Step`; the searches in terms of that.
-/

namespace Pire
open Spec
namespace Scn
variable {σ α : Type}

/-- The bytes at addresses `b, b+1, ...` (`n` of them). -/
def bytesAt (mem : Mem) (b : Nat) : Nat → List Nat
  | 0 => []
  | n + 1 => (mem b).val :: bytesAt mem (b + 1) n

/-- The bytes at addresses `rb-1, rb-2, ...` (`n` of them). -/
def bytesBack (mem : Mem) (rb : Nat) : Nat → List Nat
  | 0 => []
  | n + 1 => (mem (rb - 1)).val :: bytesBack mem (rb - 1) n

/-- State after feeding a word letter by letter with `Step`. -/
def after (sc : Scn σ α) (st : σ) (w : List Nat) : σ := w.foldl sc.step st

/-- The state a search starts from: the initial one, or the one after the given mark. -/
def startState (sc : Scn σ α) (mark : Nat) (through : Bool) : σ :=
  if through then sc.step sc.initial mark else sc.initial

/-- `Dead` is only claimed for states no continuation of which is accepted (letters: bytes, marks, padding; not epsilon). -/
def DeadSound (sc : Scn σ α) (V : σ → Prop) : Prop :=
  ∀ st, V st → sc.dead st = true → ∀ w : List Nat, (∀ c ∈ w, IsLetter c) → sc.final (sc.after st w) = false

/-- The states in `V` are closed under reading letters. -/
def Closed (sc : Scn σ α) (V : σ → Prop) : Prop := ∀ st c, V st → IsLetter c → V (sc.step st c)

/-- The exit masks tell the truth about state `st`: a state marked "no exit" is never left by a byte; a state with
shortcuts is left only by the (at most two) bytes the masks are filled with. -/
structure MaskSound (m : Masks σ) (sc : Scn σ α) (st : σ) : Prop where
  noExit : m.noExit st = true → ∀ c < 256, sc.step st c = st
  masks : m.noShortcut st = false → m.noExit st = false → ∃ a b, a < 256 ∧ b < 256 ∧
    m st = some (fillSizeT a, fillSizeT b) ∧ ∀ c < 256, c ≠ a → c ≠ b → sc.step st c = st

/-- What `ShortestPrefix` has to return: a pointer past the shortest accepted prefix, or, with the end mark, past the
whole text if no prefix is accepted, but the text followed by the mark is. -/
def shortestSpec (sc : Scn σ α) (text : List Nat) (throughBegin throughEnd : Bool) (b : Nat) (r : Option Nat) : Prop :=
  ∃ k, Shortest (fun k => sc.final (sc.after (startState sc BeginMark throughBegin) (text.take k)) = true) text.length k ∧
    r = match k with
      | some k => some (b + k)
      | none => if throughEnd ∧ sc.final (sc.after (startState sc BeginMark throughBegin) (text ++ [EndMark])) = true
          then some (b + text.length) else none

/-- What `LongestPrefix` has to return: with the end mark, past the whole text if text and mark are accepted; otherwise
past the longest accepted prefix. -/
def longestSpec (sc : Scn σ α) (text : List Nat) (throughBegin throughEnd : Bool) (b : Nat) (r : Option Nat) : Prop :=
  if throughEnd ∧ sc.final (sc.after (startState sc BeginMark throughBegin) (text ++ [EndMark])) = true
  then r = some (b + text.length)
  else ∃ k, Longest (fun k => sc.final (sc.after (startState sc BeginMark throughBegin) (text.take k)) = true) text.length k ∧
    r = k.map (b + ·)

/-- As `longestSpec`, but any accepted prefix is good enough. -/
def someSpec (sc : Scn σ α) (text : List Nat) (throughBegin throughEnd : Bool) (b : Nat) (r : Option Nat) : Prop :=
  if throughEnd ∧ sc.final (sc.after (startState sc BeginMark throughBegin) (text ++ [EndMark])) = true
  then r = some (b + text.length)
  else ∃ k, SomeAccepted (fun k => sc.final (sc.after (startState sc BeginMark throughBegin) (text.take k)) = true) text.length k ∧
    r = k.map (b + ·)

/-- What `LongestSuffix` has to return (`text` is what is read, last character first). -/
def longestSuffixSpec (sc : Scn σ α) (text : List Nat) (throughEnd throughBegin : Bool) (rb : Nat) (r : Option Nat) : Prop :=
  if throughBegin ∧ sc.final (sc.after (startState sc EndMark throughEnd) (text ++ [BeginMark])) = true
  then r = some (rb - text.length)
  else ∃ k, Longest (fun k => sc.final (sc.after (startState sc EndMark throughEnd) (text.take k)) = true) text.length k ∧
    r = k.map (rb - ·)

end Scn
end Pire
