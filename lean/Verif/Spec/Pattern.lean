import Verif.Spec.Lang
import Verif.Spec.Utf8
import Mathlib.Data.Finset.Basic

/-!
# Patterns (C40-C45): tokens, parse trees of the documented grammar, the language a tree denotes

Nothing here mentions the model of the code.
-/

namespace Pire.Spec

/-- The tokens of a pattern. `letters cs neg` is one character out of the set `cs` (outside of it when `neg`);
`count lo none` has no upper bound. -/
inductive Tok
  | letters (cs : Finset Nat) (neg : Bool)
  | count (lo : Nat) (hi : Option Nat)
  | dot
  | opn
  | cls
  | bar
  | amp
  | tilde
  | bol
  | eol
  deriving DecidableEq

/-- No count among the tokens has its bounds reversed. -/
def OrderedCounts (ts : List Tok) : Prop := ∀ lo hi, Tok.count lo (some hi) ∈ ts → lo ≤ hi

/-! Parse trees: one type per nonterminal of pire/re_parser.y. -/
mutual
inductive Alt
  | one (c : Conj)
  | or (a : Alt) (c : Conj)
inductive Conj
  | one (n : Neg)
  | and (c : Conj) (n : Neg)
inductive Neg
  | one (c : Cat)
  | not (c : Cat)
inductive Cat
  | nil
  | snoc (c : Cat) (i : Iter)
inductive Iter
  | one (t : Term)
  | rep (t : Term) (lo : Nat) (hi : Option Nat)
inductive Term
  | letters (cs : Finset Nat) (neg : Bool)
  | dot
  | bol
  | eol
  | group (a : Alt)
end

/-! The tokens a tree spells: the productions of the grammar. -/
mutual
def Alt.spell : Alt → List Tok
  | .one c => c.spell
  | .or a c => a.spell ++ .bar :: c.spell
def Conj.spell : Conj → List Tok
  | .one n => n.spell
  | .and c n => c.spell ++ .amp :: n.spell
def Neg.spell : Neg → List Tok
  | .one c => c.spell
  | .not c => .tilde :: c.spell
def Cat.spell : Cat → List Tok
  | .nil => []
  | .snoc c i => c.spell ++ i.spell
def Iter.spell : Iter → List Tok
  | .one t => t.spell
  | .rep t lo hi => t.spell ++ [.count lo hi]
def Term.spell : Term → List Tok
  | .letters cs neg => [.letters cs neg]
  | .dot => [.dot]
  | .bol => [.bol]
  | .eol => [.eol]
  | .group a => .opn :: (a.spell ++ [.cls])
end

/-- What a pattern needs to know about the encoding: how a character is written (`[]` = not at all) and which byte
strings are one character. -/
structure Codec where
  enc : Nat → List Nat
  one : Language Nat

/-- ASCII; the library calls it Latin-1. -/
def Codec.ascii : Codec := ⟨fun c => if c < 0x80 then [c] else [], anyByte⟩

/-- UTF-8. -/
def Codec.utf8 : Codec := ⟨Spec.utf8, utf8Dot⟩

/-- The encodings of the characters of a set that have one. -/
def Codec.charsOf (k : Codec) (cs : Finset Nat) : Language Nat := {w | ∃ c ∈ cs, w = k.enc c ∧ w ≠ []}

/-- `L` repeated between `lo` and `hi` times. -/
def repeated (L : Language Nat) (lo : Nat) (hi : Option Nat) : Language Nat :=
  {w | ∃ n, lo ≤ n ∧ (∀ h, hi = some h → n ≤ h) ∧ w ∈ L ^ n}

/-! The language of a tree; `^` and `$` are the begin and the end mark. -/
mutual
def Alt.den (k : Codec) : Alt → Language Nat
  | .one c => c.den k
  | .or a c => a.den k + c.den k
def Conj.den (k : Codec) : Conj → Language Nat
  | .one n => n.den k
  | .and c n => inter (c.den k) (n.den k)
def Neg.den (k : Codec) : Neg → Language Nat
  | .one c => c.den k
  | .not c => compl (c.den k)
def Cat.den (k : Codec) : Cat → Language Nat
  | .nil => 1
  | .snoc c i => c.den k * i.den k
def Iter.den (k : Codec) : Iter → Language Nat
  | .one t => t.den k
  | .rep t lo hi => repeated (t.den k) lo hi
def Term.den (k : Codec) : Term → Language Nat
  | .letters cs false => k.charsOf cs
  | .letters cs true => {w | w ∈ k.one ∧ w ∉ k.charsOf cs}
  | .dot => k.one
  | .bol => single [258]
  | .eol => single [259]
  | .group a => a.den k
end

/-! ### Patterns the library gets right

The library mishandles two things: an empty alternative `()` or `x{0}` used as an element of a sequence (the sequence
then matches nothing, C04), and the repetition `{m}`, `{m,}` (m > 1) or `{m,n}` (m > 0) of an empty alternative.
`{m,n}` with `m > n` never finishes.  Code points from 0x200000 on have no encoding. -/

/-- The empty concatenation, possibly in parentheses. -/
def Cat.isEmpty : Cat → Bool
  | .nil => true
  | .snoc _ _ => false
def Neg.isEmpty : Neg → Bool
  | .one c => c.isEmpty
  | .not _ => false
def Conj.isEmpty : Conj → Bool
  | .one n => n.isEmpty
  | .and _ _ => false
def Alt.isEmpty : Alt → Bool
  | .one c => c.isEmpty
  | .or _ _ => false
/-- `()` -/
def Term.isEmpty : Term → Bool
  | .group a => a.isEmpty
  | _ => false
/-- `()` or `x{0}` -/
def Iter.isEmpty : Iter → Bool
  | .one t => t.isEmpty
  | .rep _ 0 (some 0) => true
  | .rep _ _ _ => false

mutual
def Alt.Ok : Alt → Prop
  | .one c => c.Ok
  | .or a c => a.Ok ∧ c.Ok
def Conj.Ok : Conj → Prop
  | .one n => n.Ok
  | .and c n => c.Ok ∧ n.Ok
def Neg.Ok : Neg → Prop
  | .one c => c.Ok
  | .not c => c.Ok
def Cat.Ok : Cat → Prop
  | .nil => True
  | .snoc c i => c.Ok ∧ i.Ok ∧ i.isEmpty = false
def Iter.Ok : Iter → Prop
  | .one t => t.Ok
  | .rep t lo hi => t.Ok ∧ (∀ h, hi = some h → lo ≤ h) ∧ (t.isEmpty = true → lo = 0 ∨ (lo = 1 ∧ hi = none))
def Term.Ok : Term → Prop
  | .letters cs _ => ∀ c ∈ cs, c < 0x200000
  | .dot => True
  | .bol => True
  | .eol => True
  | .group a => a.Ok
end

/-! ### Patterns whose translation needs no complement

`~`, `&` and `[^...]` are translated through determinisation, which is limited in size and throws when it exceeds the limit. -/
mutual
def Alt.plain : Alt → Bool
  | .one c => c.plain
  | .or a c => a.plain && c.plain
def Conj.plain : Conj → Bool
  | .one n => n.plain
  | .and _ _ => false
def Neg.plain : Neg → Bool
  | .one c => c.plain
  | .not _ => false
def Cat.plain : Cat → Bool
  | .nil => true
  | .snoc c i => c.plain && i.plain
def Iter.plain : Iter → Bool
  | .one t => t.plain
  | .rep t _ _ => t.plain
def Term.plain : Term → Bool
  | .letters _ neg => !neg
  | .dot => true
  | .bol => true
  | .eol => true
  | .group a => a.plain
end

end Pire.Spec
