import Verif.Model.Fsm

/-!
# Encodings

pire/encoding.cpp, pire/stub/codepage_h.h:231-330.  A code point is a `wchar32` (a number below 2^32), a byte a number
below 256.  Bytes between `begin` and `end` are a list.
-/

namespace Pire.Enc

/-- `utf8_leadbyte_mask`, pire/stub/codepage_h.h:231-234. -/
def utf8LeadMask (len : Nat) : Nat := [0, 0, 0x1F, 0x0F, 0x07].getD len 0

/-- `utf8_rune_len`, pire/stub/codepage_h.h:236-239: the 32 entries of the string literal, indexed by `p >> 3`. -/
def utf8RuneLen (p : Nat) : Nat :=
  [1, 1, 1, 1, 1, 1, 1, 1, 1, 1, 1, 1, 1, 1, 1, 1, 0, 0, 0, 0, 0, 0, 0, 0, 2, 2, 2, 2, 3, 3, 4, 0].getD (p >>> 3) 0

/-- `utf8_rune_len_by_ucs`, pire/stub/codepage_h.h:241-255. -/
def utf8RuneLenByUcs (rune : Nat) : Nat :=
  if rune < 0x80 then 1
  else if rune < 0x800 then 2
  else if rune < 0x10000 then 3
  else if rune < 0x200000 then 4
  else if rune < 0x4000000 then 5
  else 6

/-- What reading one character does: a character and the number of bytes it took, an error code (which the callers turn
into an exception), or a read past the end of the input. -/
inductive Decoded
  | ok (rune len : Nat)
  | endOfInput
  | broken
  | overread
  deriving DecidableEq, Repr

/-- One continuation byte: `if ((ch & 0xC0) != 0x80) return RECODE_BROKENSYMBOL; _rune <<= 6; _rune |= ch & 0x3F`,
pire/stub/codepage_h.h:272-276, 278-282, 284-288. -/
def utf8Cont (rune ch : Nat) : Option Nat :=
  if ch &&& 0xC0 ≠ 0x80 then none else some ((rune <<< 6) ||| (ch &&& 0x3F))

/-- `utf8_read_rune`, pire/stub/codepage_h.h:259-295, on the bytes from `s` to `end`.  The code reads `*s` before it
compares with `end`, so on an empty range it reads one byte too many. `getD` below never uses its default: the length
has been compared with `end`. -/
def utf8ReadRune : List Nat → Decoded
  | [] => .overread
  | a :: s =>
    let len := utf8RuneLen a
    if len > s.length + 1 then .endOfInput
    else if len = 0 then .broken
    else if len > 1 then
      match utf8Cont (a &&& utf8LeadMask len) (s.getD 0 0) with
      | none => .broken
      | some r =>
        if len > 2 then
          match utf8Cont r (s.getD 1 0) with
          | none => .broken
          | some r =>
            if len > 3 then
              match utf8Cont r (s.getD 2 0) with
              | none => .broken
              | some r => .ok r len
            else .ok r len
        else .ok r len
    else .ok a len

/-- `(unsigned char) x`. -/
def byte (x : Nat) : Nat := x % 256

/-- The bytes `utf8_put_rune` stores, pire/stub/codepage_h.h:297-330; `tail = end - s` is the room for them and `none`
is `RECODE_EOOUTPUT`. -/
def utf8PutRune (rune tail : Nat) : Option (List Nat) :=
  if rune < 0x80 then
    if tail ≤ 0 then none else some [byte rune]
  else if rune < 0x800 then
    if tail ≤ 1 then none else some [byte (0xC0 ||| (rune >>> 6)), byte (0x80 ||| (rune &&& 0x3F))]
  else if rune < 0x10000 then
    if tail ≤ 2 then none else some [byte (0xE0 ||| (rune >>> 12)), byte (0x80 ||| ((rune >>> 6) &&& 0x3F)), byte (0x80 ||| (rune &&& 0x3F))]
  else
    if tail ≤ 3 then none else
      some [byte (0xF0 ||| ((rune >>> 18) &&& 0x07)), byte (0x80 ||| ((rune >>> 12) &&& 0x3F)), byte (0x80 ||| ((rune >>> 6) &&& 0x3F)),
        byte (0x80 ||| (rune &&& 0x3F))]

/-- Overwriting the beginning of a string. -/
def overwrite (s t : List Nat) : List Nat := t ++ s.drop t.length

/-- `Latin1::FromLocal`, pire/encoding.cpp:41-49. -/
def latin1FromLocal : List Nat → Decoded
  | [] => .endOfInput
  | a :: _ => if a ≥ 0x80 then .broken else .ok a 1

/-- `Latin1::ToLocal`, pire/encoding.cpp:51-57. -/
def latin1ToLocal (ch : Nat) : List Nat := if ch < 0x80 then [ch] else []

/-- `Utf8::ToLocal`, pire/encoding.cpp:89-97: the string is first filled with spaces; in a release build the result of
`utf8_put_rune` is not looked at. -/
def utf8ToLocal (c : Nat) : List Nat :=
  let ret := List.replicate (utf8RuneLenByUcs c) 32
  match utf8PutRune c ret.length with
  | none => ret
  | some t => overwrite ret t

/-- `UtfRanges::First`, pire/encoding.cpp:65-70. -/
def utfFirst : List (Nat × Nat) := [(0x00, 0x80), (0xC0, 0xE0), (0xE0, 0xF0), (0xF0, 0xF8)]

/-- `UtfRanges::Next`, pire/encoding.cpp:71. -/
def utfNext : Nat × Nat := (0x80, 0xC0)

/-- `UtfRanges::MaxLen`, pire/encoding.cpp:64. -/
def utfMaxLen : Nat := 4

/-- `for (letter = lo; letter < hi; ++letter)`: the values of `letter`. -/
def letterRange (r : Nat × Nat) : List Nat := List.range' r.1 (r.2 - r.1)

/-- First loop of `Utf8::AppendDot`, pire/encoding.cpp:102-104. -/
def utf8DotFirst (f : Fsm) : Fsm :=
  (List.range utfMaxLen).foldl (fun f i =>
    (letterRange (utfFirst.getD i (0, 0))).foldl (fun f letter => f.connectFinal (f.size - i - 1) letter) f) f

/-- Second loop of `Utf8::AppendDot`, pire/encoding.cpp:105-107. -/
def utf8DotNext (last : Nat) (f : Fsm) : Fsm :=
  (List.range (utfMaxLen - 1)).foldl (fun f i =>
    (letterRange utfNext).foldl (fun f letter => f.connect (last + i) (last + i + 1) letter) f) f

/-- `Utf8::AppendDot`, pire/encoding.cpp:99-111 (`Resize` returns the old size). -/
def utf8AppendDot (f : Fsm) : Fsm :=
  let last := f.size
  let f := f.resize (f.size + utfMaxLen)
  let f := utf8DotFirst f
  let f := utf8DotNext last f
  let f := f.clearFinal
  let f := f.setFinal (f.size - 1) true
  { f with determined := false }

/-- The two encodings the library provides, pire/encoding.cpp:117-127. -/
inductive Encoding
  | latin1
  | utf8
  deriving DecidableEq, Repr

/-- `Encoding::FromLocal(const char*&, const char*)`, pire/encoding.h:41; the position it advances to is `len`. -/
def Encoding.fromLocal : Encoding → List Nat → Decoded
  | .latin1 => latin1FromLocal
  | .utf8 => utf8ReadRune

/-- `Encoding::ToLocal`, pire/encoding.h:45. -/
def Encoding.toLocal : Encoding → Nat → List Nat
  | .latin1 => latin1ToLocal
  | .utf8 => utf8ToLocal

/-- `Encoding::AppendDot`, pire/encoding.h:49; for Latin-1 pire/encoding.cpp:59. -/
def Encoding.appendDot : Encoding → Fsm → Fsm
  | .latin1 => Fsm.appendDot
  | .utf8 => utf8AppendDot

/-- `Encoding::FromLocal(begin, end, iter)`, pire/encoding.h:51-59: decodes the whole range. `fuel` bounds the number
of iterations by the number of bytes; every iteration that does not throw advances. Outcomes: the characters,
`none` = exception; the outer `none` = a read past the end. -/
def Encoding.decodeFuel (e : Encoding) : Nat → List Nat → Option (Option (List Nat))
  | _, [] => some (some [])
  | 0, _ :: _ => some none
  | n + 1, s@(_ :: _) =>
    match e.fromLocal s with
    | .overread => none
    | .endOfInput | .broken => some none
    | .ok c len => (e.decodeFuel n (s.drop len)).map fun r => r.map (c :: ·)

/-- See `decodeFuel`. -/
def Encoding.decode (e : Encoding) (s : List Nat) : Option (Option (List Nat)) := e.decodeFuel s.length s

end Pire.Enc
