import Verif.Spec.Lang
import Verif.Spec.Count

/-!
# What the machine of a `CountingScanner` does, in terms of the two languages

`re` is what is counted, `sep` is what may stand between the matches. The machine looks at two words, both of them ends of what has been read:
the main one and a spare one. No automata here.
-/

namespace Pire
namespace Spec
namespace Counting

open Classical

/-- A separator in which nothing matches, followed by a match. -/
def Item (re sep : Language Nat) (w : List Nat) : Prop := ∃ u v, w = u ++ v ∧ u ∈ sep ∧ (∀ x, x <:+: u → x ∉ re) ∧ v ∈ re

/-- A byte or a mark of the beginning or of the end of the text. -/
def Plain (c : Nat) : Prop := c < 256 ∨ c = 258 ∨ c = 259

/-- A word of one character. -/
def Lone (w : List Nat) : Prop := ∃ c, Plain c ∧ w = [c]

/-- The words looked for: items and single characters. -/
def Accepted (re sep : Language Nat) (w : List Nat) : Prop := Item re sep w ∨ Lone w

/-- The word can be continued to one of those. -/
def Alive (re sep : Language Nat) (w : List Nat) : Prop := ∃ u, Accepted re sep (w ++ u)

/-- The word begins with an item. -/
def Matched (re sep : Language Nat) (w : List Nat) : Prop := ∃ u, u <+: w ∧ Item re sep u

/-- What happens on a character; `s` is the main and the spare word. The main word goes on as long as it can; when it cannot, the spare one takes its
place. The spare word starts anew as soon as the main one is accepted, and also when it is accepted itself and the main one has no item yet. -/
noncomputable def next (re sep : Language Nat) (s : List Nat × List Nat) (c : Nat) : List Nat × List Nat :=
  let m := if Alive re sep (s.1 ++ [c]) then s.1 ++ [c] else s.2 ++ [c]
  (m, if Accepted re sep m ∨ (Accepted re sep (s.2 ++ [c]) ∧ ¬ Matched re sep m) then [] else s.2 ++ [c])

/-- What the counter is told: nothing as long as the main word goes on; otherwise to go up if there is an item at its beginning, to start anew if
there is not. -/
noncomputable def out (re sep : Language Nat) (s : List Nat × List Nat) (c : Nat) : Nat :=
  if Alive re sep (s.1 ++ [c]) then 0 else if Matched re sep (s.1 ++ [c]) then 3 else 1

/-- The two words after a text. -/
noncomputable def after (re sep : Language Nat) (w : List Nat) : List Nat × List Nat := w.foldl (next re sep) ([], [])

/-- Every continuation of the word is accepted. -/
def Sure (re sep : Language Nat) (w : List Nat) : Prop := ∀ u, IsWord u → Accepted re sep (w ++ u)

/-- The word had been sure before its last character. -/
def Settled (re sep : Language Nat) (w : List Nat) : Prop := ∃ u v, w = u ++ v ∧ v ≠ [] ∧ Sure re sep u

/-- The two words cannot be told apart by what follows. -/
def Alike (re sep : Language Nat) (x y : List Nat) : Prop :=
  (∀ u, IsWord u → (Accepted re sep (x ++ u) ↔ Accepted re sep (y ++ u)) ∧ (Matched re sep (x ++ u) ↔ Matched re sep (y ++ u))) ∧
  ((Lone x ↔ Lone y) ∨ Settled re sep x ∨ Settled re sep y)

/-- Pairs of such words. -/
def Alike₂ (re sep : Language Nat) (s t : List Nat × List Nat) : Prop := Alike re sep s.1 t.1 ∧ Alike re sep s.2 t.2

/-- What the counter may be told on the text `w`: on every character what `out` says, or else what it says for a character that leads
to a situation that cannot be told from the one this character leads to; and it is not left without a word when `out` says something. -/
def Told (re sep : Language Nat) : List Nat × List Nat → List Nat → List Nat → Prop
  | _, [], os => os = []
  | s, c :: w, os => ∃ o os', os = o :: os' ∧ (∃ c', IsLetter c' ∧ Alike₂ re sep (next re sep s c') (next re sep s c) ∧ o = out re sep s c') ∧
      (o = 0 → out re sep s c = 0) ∧ Told re sep (next re sep s c) w os'

/-- What the counter is told when no character is taken for another one. -/
noncomputable def outs (re sep : Language Nat) : List Nat × List Nat → List Nat → List Nat
  | _, [] => []
  | s, c :: w => out re sep s c :: outs re sep (next re sep s c) w

/-! ### An orderly case -/

/-- A word that begins with an item, and can be continued to an item, is an item (or a single character). -/
def Steady (re sep : Language Nat) : Prop := ∀ w, Matched re sep w → Alive re sep w → Accepted re sep w

/-- Items consist of bytes and marks. -/
def PlainItems (re sep : Language Nat) : Prop := ∀ w, Item re sep w → ∀ c ∈ w, Plain c

/-- The text `w` is cut into pieces from left to right; `m` is the beginning of the current piece. A piece is as long as it can be: it ends where the
next character would make it a word that is not the beginning of an item. (The last piece, which has not ended, is not in the list.) -/
noncomputable def pieces (re sep : Language Nat) : List Nat → List Nat → List (List Nat)
  | _, [] => []
  | m, c :: w => if Alive re sep (m ++ [c]) then pieces re sep (m ++ [c]) w else m :: pieces re sep [c] w

/-- The last piece. -/
noncomputable def rest (re sep : Language Nat) : List Nat → List Nat → List Nat
  | m, [] => m
  | m, c :: w => if Alive re sep (m ++ [c]) then rest re sep (m ++ [c]) w else rest re sep [c] w

/-- A piece that is an item counts; one that is not makes counting start anew. -/
noncomputable def verdict (re sep : Language Nat) (x : List Nat) : Op := if Item re sep x then .inc else .reset

end Counting
end Spec
end Pire
