import Verif.Spec.Pattern
import Mathlib.Data.Finset.Union
import Mathlib.Order.Interval.Finset.Nat

/-!
# How tokens are written (C40-C43)

The concrete syntax of patterns, as a relation between pieces of text (lists of code points) and tokens.  Nothing here
mentions the model of the code.
-/

namespace Pire.Spec

/-- The optional parts of the syntax: the operators `&` and `~`, the characters a literal stands for (itself, or itself
and its other case), and the lookalikes of a character (itself, or also Cyrillic letters that look like Latin ones). -/
structure Flavor where
  andNot : Bool
  fold : Nat → Finset Nat
  look : Nat → Finset Nat

/-- The syntax without optional parts. -/
def Flavor.default : Flavor := ⟨false, fun c => {c}, fun c => {c}⟩

/-- Letters that look alike, Latin and Cyrillic. -/
def lookalikes : List (List Nat) :=
  [['A', 'А'], ['B', 'В'], ['C', 'С'], ['E', 'Е', 'Ё'], ['H', 'Н'], ['K', 'К'], ['M', 'М'], ['O', 'О'], ['P', 'Р'], ['T', 'Т'],
    ['X', 'Х'], ['a', 'а'], ['c', 'с'], ['e', 'е', 'ё'], ['m', 'т'], ['o', 'о'], ['p', 'р'], ['u', 'и'], ['x', 'х'],
    ['y', 'у']].map (·.map Char.toNat)

/-- The syntax with optional parts; `up` and `low` are the mappings to upper and lower case. -/
def Flavor.of (up low : Nat → Nat) (andNot fold look : Bool) : Flavor :=
  ⟨andNot, fun c => if fold then {up c, low c} else {c},
    fun c => if look then insert c ((lookalikes.filter (c ∈ ·)).flatten.toFinset) else {c}⟩

/-- The code points U+xF000 - U+xF0FF of every plane cannot be used in a pattern: the library uses them internally. -/
def Reserved (c : Nat) : Prop := c / 256 % 256 = 0xF0

instance (c : Nat) : Decidable (Reserved c) := inferInstanceAs (Decidable (_ = _))

/-- A character of a pattern. -/
def Usable (c : Nat) : Prop := ¬ Reserved c ∧ c < 0x200000

instance (c : Nat) : Decidable (Usable c) := inferInstanceAs (Decidable (_ ∧ _))

/-- The characters with a meaning of their own outside of brackets, `|().*+?^$\[{` and with the operators also `&~`. -/
def Flavor.special (fl : Flavor) : List Nat :=
  [124, 40, 41, 46, 42, 43, 63, 94, 36, 92, 91, 123] ++ if fl.andNot then [38, 126] else []

/-- The characters a backslash makes literal outside of brackets: the special ones and `]}`. -/
def Flavor.quotable (fl : Flavor) : List Nat := fl.special ++ [93, 125]

/-- The character classes `\l` (Latin letters), `\c` (Cyrillic letters), `\w` (both), `\d` (digits), `\s` (space,
tab, carriage return, line feed, no-break space), `\n`, `\r`, `\t`. -/
def charClass (n : Nat) : Option (Finset Nat) :=
  let latin := Finset.Icc 65 90 ∪ Finset.Icc 97 122
  let cyrillic := Finset.Icc 0x410 0x44F ∪ {0x401, 0x451}
  if n = 108 then some latin
  else if n = 99 then some cyrillic
  else if n = 119 then some (latin ∪ cyrillic)
  else if n = 100 then some (Finset.Icc 48 57)
  else if n = 115 then some {32, 9, 13, 10, 0xA0}
  else if n = 110 then some {10}
  else if n = 114 then some {13}
  else if n = 116 then some {9}
  else none

/-- A hexadecimal digit and its value. -/
inductive HexDigit : Nat → Nat → Prop
  | digit (v : Nat) : v < 10 → HexDigit (48 + v) v
  | capital (v : Nat) : 10 ≤ v → v < 16 → HexDigit (55 + v) v
  | small (v : Nat) : 10 ≤ v → v < 16 → HexDigit (87 + v) v

/-- A numeral in base 16. -/
inductive Hex : List Nat → Nat → Prop
  | nil : Hex [] 0
  | snoc {ds n d v} : Hex ds n → HexDigit d v → Hex (ds ++ [d]) (16 * n + v)

/-- A numeral in base 10. -/
inductive Decimal : List Nat → Nat → Prop
  | nil : Decimal [] 0
  | snoc {ds n v} : Decimal ds n → v < 10 → Decimal (ds ++ [48 + v]) (10 * n + v)

/-- A character by its code, `\xHH` or `\x{H...H}`. -/
inductive CharCode : List Nat → Nat → Prop
  | two {ds c} : Hex ds c → ds.length = 2 → CharCode ([92, 120] ++ ds) c
  | braces {ds c} : Hex ds c → ds ≠ [] → c ≤ 0x10FFFF → CharCode ([92, 120, 123] ++ ds ++ [125]) c

/-- A character in brackets that may begin or end a range. -/
inductive Bound : List Nat → Nat → Prop
  | plain {c} : c ∉ [94, 91, 93, 45, 92] → c ≠ 0 → Usable c → Bound [c] c
  | quoted {c} : c ∈ [94, 91, 93, 45, 92] → Bound [92, c] c
  | code {t c} : CharCode t c → Usable c → Bound t c

/-- What may stand between brackets, and the characters it adds.  A bare `-` may only stand where it cannot be taken for
the one of a range: the flag. -/
inductive Items (fl : Flavor) : Bool → List Nat → Finset Nat → Prop
  | nil {b} : Items fl b [] ∅
  | dash {t cs} : Items fl true t cs → Items fl true (45 :: t) (fl.fold 45 ∪ cs)
  | single {b s c t cs} : Bound s c → Items fl false t cs → Items fl b (s ++ t) (fl.fold c ∪ cs)
  | range {b s x s' y t cs} : Bound s x → Bound s' y → (∀ c, x ≤ c → c ≤ y → Usable c) → Items fl true t cs →
      Items fl b (s ++ 45 :: (s' ++ t)) ((Finset.Icc x y).biUnion fl.fold ∪ cs)
  /-- one of `*+{}()$?.&~` quoted -/
  | quoted {b c t cs} : c ∈ [42, 43, 123, 125, 40, 41, 36, 63, 46, 38, 126] → Items fl true t cs →
      Items fl b (92 :: c :: t) (fl.fold c ∪ cs)
  /-- a bare `[` or `^` -/
  | bare {b c t cs} : c ∈ [91, 94] → Items fl true t cs → Items fl b (c :: t) (fl.fold c ∪ cs)
  | cls {b n k t cs} : charClass n = some k → Items fl true t cs → Items fl b (92 :: n :: t) (k ∪ cs)

/-- A set with its lookalikes. -/
def Flavor.widen (fl : Flavor) (cs : Finset Nat) : Finset Nat := cs.biUnion fl.look

/-- How a token is written. -/
inductive Written (fl : Flavor) : List Nat → Tok → Prop
  | plain {c} : c ∉ fl.special → Usable c → Written fl [c] (.letters (fl.widen (fl.fold c)) false)
  | quoted {c} : c ∈ fl.quotable → Written fl [92, c] (.letters (fl.widen (fl.fold c)) false)
  | code {t c} : CharCode t c → Usable c → Written fl t (.letters (fl.widen (fl.fold c)) false)
  | cls {n k} : charClass n = some k → Written fl [92, n] (.letters (fl.widen k) false)
  /-- The capital letter is the complement. -/
  | notCls {n k} : charClass n = some k → Written fl [92, n - 32] (.letters (fl.widen k) true)
  | bracket {t cs} : Items fl true t cs → t.head? ≠ some 94 → Written fl (91 :: (t ++ [93])) (.letters (fl.widen cs) false)
  | notBracket {t cs} : Items fl true t cs → Written fl (91 :: 94 :: (t ++ [93])) (.letters (fl.widen cs) true)
  | exactly {ds n} : Decimal ds n → ds ≠ [] → n < 2 ^ 31 → Written fl (123 :: (ds ++ [125])) (.count n (some n))
  | atLeast {ds n} : Decimal ds n → ds ≠ [] → n < 2 ^ 31 → Written fl (123 :: (ds ++ [44, 125])) (.count n none)
  | between {ds n ds' n'} : Decimal ds n → ds ≠ [] → n < 2 ^ 31 → Decimal ds' n' → ds' ≠ [] → n' < 2 ^ 31 →
      Written fl (123 :: (ds ++ 44 :: (ds' ++ [125]))) (.count n (some n'))
  | star : Written fl [42] (.count 0 none)
  | plus : Written fl [43] (.count 1 none)
  | opt : Written fl [63] (.count 0 (some 1))
  | dot : Written fl [46] .dot
  | opn : Written fl [40] .opn
  | cls' : Written fl [41] .cls
  | bar : Written fl [124] .bar
  | bol : Written fl [94] .bol
  | eol : Written fl [36] .eol
  | amp : fl.andNot = true → Written fl [38] .amp
  | tilde : fl.andNot = true → Written fl [126] .tilde

/-- Every backslash is followed by a character. -/
inductive Paired : List Nat → Prop
  | nil : Paired []
  | plain {c s} : c ≠ 92 → Paired s → Paired (c :: s)
  | quoted {c s} : Paired s → Paired (92 :: c :: s)

/-- Texts in the alphabets up to Hebrew without `ÿ`, with at most nine digits in a row. -/
def Clean (s : List Nat) : Prop := (∀ c ∈ s, c < 0x660 ∧ c ≠ 0xFF) ∧
  ∀ u ds v, s = u ++ ds ++ v → (∀ d ∈ ds, 48 ≤ d ∧ d ≤ 57) → ds.length ≤ 9

/-- A pattern: pieces of text put together, and the tokens they stand for. -/
inductive Pattern (fl : Flavor) : List Nat → List Tok → Prop
  | nil : Pattern fl [] []
  | cons {t tok s ts} : Written fl t tok → Pattern fl s ts → Pattern fl (t ++ s) (tok :: ts)

end Pire.Spec
