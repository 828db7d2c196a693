import Verif.Model.Unidata
import Verif.Model.Encoding
import Verif.Spec.Pattern
import Mathlib.Data.Finset.Union
import Mathlib.Order.Interval.Finset.Nat

/-!
# The lexer of patterns

pire/re_lexer.{h,cpp}, pire/read_unicode.cpp, pire/classes.cpp, pire/extra/glyphs.cpp.

The input deque is a list of `wchar32` values (numbers below 2^32).  A `Term` with its value is a token of
`Spec.Tok`.  `Term::String` is always one character for the features modelled (nothing in the library builds longer
ones), so a `Term::Strings` is a set of characters; `std::set` iterates over it in ascending order.
`Consts::Inf` as upper bound of a repetition is `none`.  Features written by users are not modelled.
-/

namespace Pire.Lex

open Pire.Spec (Tok)
open Pire.Unidata

/-- Result of a function that may throw; `bad`: undefined behaviour (signed overflow) or a loop that does not end. -/
inductive Res (α : Type)
  | ok (a : α)
  | throws
  | bad
  deriving DecidableEq, Repr

namespace Res
/-- Sequencing. -/
def bind {α β : Type} : Res α → (α → Res β) → Res β
  | ok a, f => f a
  | throws, _ => throws
  | bad, _ => bad

instance : Monad Res where
  pure := ok
  bind := bind
end Res

/-- `Consts::Control`, pire/re_lexer.h:45. -/
abbrev Control : Nat := 0xF000
/-- `Consts::ControlMask`, pire/re_lexer.h:46. -/
abbrev ControlMask : Nat := 0xFF00
/-- `Consts::End`, pire/re_lexer.h:47. -/
abbrev End : Nat := 0xF0FF
/-- `UnicodeReader::MaxUnicode`, pire/read_unicode.h:36. -/
abbrev MaxUnicode : Nat := 0x10FFFF

/-- `(c & ControlMask) == Control`. -/
def isControl (c : Nat) : Bool := c &&& ControlMask == Control

/-- `c & ~ControlMask` in 32 bits. -/
def plain (c : Nat) : Nat := c &&& 0xFFFF00FF

/-- `strchr(s, c) != 0`: the argument is converted to `char`, and the terminating zero is found too. -/
def inStr (s : List Nat) (c : Nat) : Bool := s.contains (c % 256) || c % 256 == 0

/-- `Lexer::GetChar`, pire/re_lexer.cpp:48-64. -/
def getChar : List Nat → Res (Nat × List Nat)
  | [] => .ok (End, [])
  | c :: s =>
    if c = 92 then
      match s with
      | [] => .throws
      | ch :: s => .ok (Control ||| ch, s)
    else .ok (c, s)

/-- `Lexer::PeekChar`, pire/re_lexer.cpp:66-72. -/
def peekChar : List Nat → Nat
  | [] => End
  | c :: _ => c

/-- `Lexer::UngetChar`, pire/re_lexer.cpp:74-78. -/
def ungetChar (c : Nat) (s : List Nat) : List Nat := if c = End then s else c :: s

/-- `Feature::CorrectChar`, pire/re_lexer.cpp:194-202. -/
def correctChar (c : Nat) (controls : List Nat) : Nat :=
  let ctrl := inStr controls (c % 256)
  if isControl c && ctrl then plain c
  else if c ≤ 0xFF && ctrl then c ||| Control
  else c

/-! ### `\x` -/

/-- `UnicodeReader::IsHexDigit`, pire/read_unicode.cpp:48-50 (`std::isxdigit` of the C locale). -/
def isHexDigit (c : Nat) : Bool := decide (48 ≤ c ∧ c ≤ 57) || decide (65 ≤ c ∧ c ≤ 70) || decide (97 ≤ c ∧ c ≤ 102)

/-- Value of a hexadecimal digit. -/
def hexVal (c : Nat) : Nat := if c ≤ 57 then c - 48 else if c ≤ 70 then c - 55 else c - 87

/-- `UnicodeReader::ReadHexDigit`, pire/read_unicode.cpp:52-64; every iteration but the last takes a digit from the
input, `fuel` = number of iterations allowed. -/
def readHexDigit (shouldStop : Nat → Nat → Bool) : Nat → List Nat → List Nat → Res (List Nat × List Nat)
  | 0, _, _ => .bad
  | fuel + 1, result, s => do
    let (ch, s) ← getChar s
    if shouldStop ch result.length then .ok (result, ungetChar ch s)
    else if isHexDigit ch then readHexDigit shouldStop fuel (result ++ [ch]) s
    else .throws

/-- `UnicodeReader::HexToDec`, pire/read_unicode.cpp:66-77. `std::stoul` yields a 64-bit number (or throws
`out_of_range`, which becomes `MaxUnicode + 1`) that is stored in a 32-bit variable; on an empty string it throws
`invalid_argument`. -/
def hexToDec (hex : List Nat) : Res Nat :=
  if hex = [] then .throws else
  let v := hex.foldl (fun v c => v * 16 + hexVal c) 0
  let converted := if v < 2 ^ 64 then v % 2 ^ 32 else MaxUnicode + 1
  if converted > MaxUnicode then .throws else .ok converted

/-- `UnicodeReader::ReadUnicodeCharacter`, pire/read_unicode.cpp:26-46. -/
def readUnicode (s : List Nat) : Res (Nat × List Nat) := do
  let (_, s) ← getChar s
  if peekChar s = 123 then
    let (_, s) ← getChar s
    let (hex, s) ← readHexDigit (fun ch n => decide (ch = End) || (decide (n ≠ 0) && decide (ch = 125))) (s.length + 1) [] s
    let (ch, s) ← getChar s
    if ch ≠ 125 then .throws
    else
      let c ← hexToDec hex
      .ok (c, s)
  else
    let (hex, s) ← readHexDigit (fun _ n => decide (n = 2)) (s.length + 3) [] s
    if hex.length ≠ 2 then .throws
    else
      let c ← hexToDec hex
      .ok (c, s)

/-! ### Bracket expressions -/

/-- `"^[]-\\"`, pire/re_lexer.cpp:222. -/
def rangeControls : List Nat := [94, 91, 93, 45, 92]
/-- `"*+{}()$?.&~"`, pire/re_lexer.cpp:223. -/
def rangeControls2 : List Nat := [42, 43, 123, 125, 40, 41, 36, 63, 46, 38, 126]

/-- One element of a bracket expression, pire/re_lexer.cpp:239-278: the characters it adds and the rest of the input.
A range up to 2^32 - 1 never ends: `ch <= end` is always true. -/
def rangeItem (ch : Nat) (s : List Nat) : Res (Finset Nat × List Nat) := do
  let (firstUnicode, unicodeSymbol, s) ←
    (if ch = Control ||| 120 then do
      let (c, s) ← readUnicode (ungetChar ch s)
      Res.ok (true, c, s)
    else Res.ok (false, 0, s) : Res (Bool × Nat × List Nat))
  if (!isControl ch || firstUnicode) && decide (correctChar (peekChar s) rangeControls = (Control ||| 45)) then
    let (_, s) ← getChar s
    let (current, s) ← getChar s
    let first := if firstUnicode then unicodeSymbol else ch
    let (last, s) ←
      (if current = Control ||| 120 then readUnicode (ungetChar current s)
      else
        let last := correctChar current rangeControls
        if isControl last then Res.throws else Res.ok (last, s) : Res (Nat × List Nat))
    if last ≥ 2 ^ 32 - 1 ∧ first ≤ last then .bad
    else .ok (Finset.Icc first last, s)
  else if ch = Control ||| 45 then .ok ({45}, s)
  else if isControl ch && (inStr rangeControls2 (plain ch) || inStr rangeControls (plain ch)) then .ok ({plain ch}, s)
  else if !isControl ch || !inStr rangeControls (plain ch) then .ok ({if firstUnicode then unicodeSymbol else ch}, s)
  else .throws

/-- The loop of `CharacterRangeReader::Lex`, pire/re_lexer.cpp:238-280. -/
def rangeLoop : Nat → Nat → List Nat → Finset Nat → Res (Finset Nat × List Nat)
  | 0, _, _, _ => .bad
  | fuel + 1, ch, s, cs =>
    if ch = End then .throws
    else if ch = Control ||| 93 then .ok (cs, s)
    else do
      let (new, s) ← rangeItem ch s
      let (ch, s) ← getChar s
      rangeLoop fuel (correctChar ch rangeControls) s (cs ∪ new)

/-- `CharacterRangeReader::Lex`, pire/re_lexer.cpp:220-283. -/
def lexRange (s : List Nat) : Res (Tok × List Nat) := do
  let (ch, s) ← getChar s
  let ch := correctChar ch rangeControls
  if ch = 91 ∨ ch = 93 then .ok (.letters {ch} false, s)
  else
    let (ch, s) ← getChar s
    let ch := correctChar ch rangeControls
    if ch = Control ||| 94 then
      let (ch, s) ← getChar s
      let (cs, s) ← rangeLoop (s.length + 2) (correctChar ch rangeControls) s ∅
      .ok (.letters cs true, s)
    else
      let (cs, s) ← rangeLoop (s.length + 2) ch s ∅
      .ok (.letters cs false, s)

/-! ### Repetition counts -/

/-- `for (; is_digit(ch); ch = GetChar()) n = n * 10 + (ch - '0')`, pire/re_lexer.cpp:301-302, 313-314. The result does
not fit an `int`: `bad`. -/
def readInt : Nat → Nat → Nat → List Nat → Res (Nat × Nat × List Nat)
  | 0, _, _, _ => .bad
  | fuel + 1, n, ch, s =>
    if isDigit ch then
      let n := n * 10 + (ch - 48)
      if n ≥ 2 ^ 31 then .bad
      else do
        let (ch, s) ← getChar s
        readInt fuel n ch s
    else .ok (n, ch, s)

/-- `RepetitionCountReader::Lex`, pire/re_lexer.cpp:290-319. -/
def lexCount (s : List Nat) : Res (Tok × List Nat) := do
  let (ch, s) ← getChar s
  if ch = Control ||| 123 ∨ ch = Control ||| 125 then .ok (.letters {plain ch} false, s)
  else
    let (ch, s) ← getChar s
    if !isDigit ch then .throws
    else
      let (lower, ch, s) ← readInt (s.length + 2) 0 ch s
      if ch = 125 then .ok (.count lower (some lower), s)
      else if ch ≠ 44 then .throws
      else
        let (ch, s) ← getChar s
        if ch = 125 then .ok (.count lower none, s)
        else if !isDigit ch then .throws
        else
          let (upper, ch, s) ← readInt (s.length + 2) 0 ch s
          if ch ≠ 125 then .throws
          else .ok (.count lower (some upper), s)

/-- `AndNotSupportImpl::Lex`, pire/re_lexer.cpp:348-361. -/
def lexAndNot (s : List Nat) : Res (Tok × List Nat) := do
  let (ch, s) ← getChar s
  if ch = Control ||| 38 ∨ ch = Control ||| 126 then .ok (.letters {plain ch} false, s)
  else if ch = 38 then .ok (.amp, s)
  else if ch = 126 then .ok (.tilde, s)
  else .throws

/-- `EnableUnicodeSequencesImpl::Lex`, pire/re_lexer.cpp:211-213. -/
def lexUnicode (s : List Nat) : Res (Tok × List Nat) := do
  let (c, s) ← readUnicode s
  .ok (.letters {c} false, s)

/-! ### Character classes -/

/-- `CharClassesTable`, pire/classes.cpp:82-102 (the ranges of a class). -/
def classTable : List (Nat × List (Nat × Nat)) :=
  let l := [(65, 90), (97, 122)]
  let c := [(0x410, 0x44F), (0x401, 0x401), (0x451, 0x451)]
  [(108, l), (99, c), (119, l ++ c), (100, [(48, 57)]), (115, [(32, 32), (9, 9), (13, 13), (10, 10), (0xA0, 0xA0)]),
    (110, [(10, 10)]), (114, [(13, 13)]), (116, [(9, 9)])]

/-- `CharClass::ToSet`, pire/classes.cpp:55-62. -/
def rangesSet (l : List (Nat × Nat)) : Finset Nat := l.foldr (fun r s => Finset.Icc r.1 r.2 ∪ s) ∅

/-- `CharClassesTable::Has` and `Get`, pire/classes.cpp:69-80: the class named by the character, if there is one. -/
def classOf (wc : Nat) : Option (Finset Nat) := (classTable.lookup (toLower (plain wc))).map rangesSet

/-- `CharClassesImpl::Alter`, pire/classes.cpp:112-138. -/
def alterClasses (cs : Finset Nat) (neg : Bool) : Res (Finset Nat × Bool) :=
  let isClass := fun i => isControl i && (classOf i).isSome
  let negs := cs.filter fun i => isClass i && isUpper (plain i)
  let poss := cs.filter fun i => isClass i && !isUpper (plain i)
  let altered := cs.biUnion fun i => if isClass i then (classOf i).getD ∅ else {i}
  if negs.Nonempty ∧ (poss.Nonempty ∨ neg) then .throws
  else .ok (altered, decide negs.Nonempty || neg)

/-- `CaseInsensitiveImpl::Alter`, pire/re_lexer.cpp:324-339. -/
def alterCase (cs : Finset Nat) : Finset Nat := cs.image toUpper ∪ cs.image toLower

/-- `GlyphTable`, pire/extra/glyphs.cpp:82-105. -/
def glyphClasses : List (List Nat) :=
  [[65, 0x410], [66, 0x412], [67, 0x421], [69, 0x415, 0x401], [72, 0x41D], [75, 0x41A], [77, 0x41C], [79, 0x41E], [80, 0x420],
    [84, 0x422], [88, 0x425], [97, 0x430], [99, 0x441], [101, 0x435, 0x451], [109, 0x442], [111, 0x43E], [112, 0x440],
    [117, 0x438], [120, 0x445], [121, 0x443]]

/-- `GlueSimilarGlyphsImpl::Alter`, pire/extra/glyphs.cpp:113-131. -/
def alterGlyphs (cs : Finset Nat) : Finset Nat :=
  cs.biUnion fun i => match glyphClasses.find? (·.contains i) with
    | some k => k.toFinset
    | none => {i}

/-! ### The lexer -/

/-- The features the library provides. -/
inductive Feature
  | charRange
  | repetition
  | charClasses
  | unicode
  | caseInsensitive
  | andNot
  | glyphs
  deriving DecidableEq, Repr

/-- `Feature::Priority`, pire/re_lexer.h:192, pire/classes.cpp:110, pire/extra/glyphs.cpp:111. -/
def Feature.priority : Feature → Nat
  | .charClasses => 10
  | .glyphs => 9
  | _ => 50

/-- `Lexer::AddFeature`, pire/re_lexer.cpp:90-102: inserted before the first feature of at least the same priority. -/
def addFeature (f : Feature) : List Feature → List Feature
  | [] => [f]
  | g :: l => if g.priority < f.priority then g :: addFeature f l else f :: g :: l

/-- `Lexer::InstallDefaultFeatures`, pire/re_lexer.cpp:371-377. -/
def defaultFeatures : List Feature :=
  addFeature .unicode (addFeature .charClasses (addFeature .repetition (addFeature .charRange [])))

/-- `Feature::Accepts`, pire/re_lexer.cpp:207-209, 218, 288, 343-346; `Feature::Lex`. `none`: does not accept. -/
def Feature.lex (f : Feature) (ch : Nat) (s : List Nat) : Option (Res (Tok × List Nat)) :=
  match f with
  | .charRange => if ch = 91 ∨ ch = Control ||| 91 ∨ ch = Control ||| 93 then some (lexRange s) else none
  | .repetition => if ch = 123 ∨ ch = Control ||| 123 ∨ ch = Control ||| 125 then some (lexCount s) else none
  | .unicode => if ch = Control ||| 120 then some (lexUnicode s) else none
  | .andNot => if ch = 38 ∨ ch = 126 ∨ ch = Control ||| 38 ∨ ch = Control ||| 126 then some (lexAndNot s) else none
  | .charClasses | .caseInsensitive | .glyphs => none

/-- `Feature::Alter` for a term carrying a character range. -/
def Feature.alter (f : Feature) (cs : Finset Nat) (neg : Bool) : Res (Finset Nat × Bool) :=
  match f with
  | .charClasses => alterClasses cs neg
  | .caseInsensitive => .ok (alterCase cs, neg)
  | .glyphs => .ok (alterGlyphs cs, neg)
  | _ => .ok (cs, neg)

/-- `"|().*+?^$\\"`, pire/re_lexer.cpp:106. -/
def controls : List Nat := [124, 40, 41, 46, 42, 43, 63, 94, 36, 92]

/-- The built-in part of `Lexer::DoLex`, pire/re_lexer.cpp:121-142. -/
def lexBuiltin (s : List Nat) : Res (Tok × List Nat) := do
  let (ch, s) ← getChar s
  if ch = 124 then .ok (.bar, s)
  else if ch = 40 then .ok (.opn, s)
  else if ch = 41 then .ok (.cls, s)
  else if ch = 46 then .ok (.dot, s)
  else if ch = 42 then .ok (.count 0 none, s)
  else if ch = 43 then .ok (.count 1 none, s)
  else if ch = 63 then .ok (.count 0 (some 1), s)
  else if ch = 94 then .ok (.bol, s)
  else if ch = 36 then .ok (.eol, s)
  else if isControl ch && inStr controls (plain ch) then .ok (.letters {plain ch} false, s)
  else .ok (.letters {ch} false, s)

/-- `Lexer::DoLex`, pire/re_lexer.cpp:104-144; `none` is the end of the pattern. Every path of the loop body returns in
its first iteration, the modelled features never decline what they accept. -/
def doLex (features : List Feature) (s : List Nat) : Res (Option (Tok × List Nat)) := do
  let (c, s1) ← getChar s
  let s := ungetChar c s1
  let ch := peekChar s
  if ch = End then .ok none
  else
    let (t, s) ← (features.findSome? fun f => f.lex ch s).getD (lexBuiltin s)
    .ok (some (t, s))

/-- The `Alter` calls of `Lexer::Lex`, pire/re_lexer.cpp:150-151: last feature first. -/
def alterAll (features : List Feature) (cs : Finset Nat) (neg : Bool) : Res (Finset Nat × Bool) :=
  features.foldr (fun f r => do let (cs, neg) ← r; f.alter cs neg) (.ok (cs, neg))

/-- `Lexer::Lex`, pire/re_lexer.cpp:146-186. -/
def lex (features : List Feature) (s : List Nat) : Res (Option (Tok × List Nat)) := do
  match ← doLex features s with
  | none => .ok none
  | some (.letters cs neg, s) =>
    let (cs, neg) ← alterAll features cs neg
    if (cs.filter fun c => isControl c = true).Nonempty then .throws
    else .ok (some (.letters cs neg, s))
  | some (t, s) => .ok (some (t, s))

/-- All the tokens of a pattern, as `yylex` (pire/re_parser.y:163-176) hands them to the parser one by one, if there is no exception. (How the parser
asks for them: `Parse.pull`.) -/
def tokens (features : List Feature) : Nat → List Nat → Res (List Tok)
  | 0, _ => .bad
  | fuel + 1, s => do
    match ← lex features s with
    | none => .ok []
    | some (t, s) =>
      let ts ← tokens features fuel s
      .ok (t :: ts)

/-- The tokens `yylex` has read from a pattern when it comes to its end or throws. -/
def tokensRead (features : List Feature) : Nat → List Nat → List Tok
  | 0, _ => []
  | fuel + 1, s =>
    match lex features s with
    | .ok (some (t, s)) => t :: tokensRead features fuel s
    | _ => []

/-- `Lexer::Assign` from `char`s (signed, as on x86), pire/re_lexer.h:136-140: bytes from 0x80 on are sign extended. -/
def assignChars (s : List Nat) : List Nat := s.map fun b => if b < 128 then b else b + (2 ^ 32 - 256)

end Pire.Lex
