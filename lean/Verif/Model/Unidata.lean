import Verif.Model.UnidataTables

/-!
# Unicode properties used by the lexer

pire/stub/unidata_h.h.  A code point is a `wchar32`, a number below 2^32.
-/

namespace Pire.Unidata

/-- Element `i` of a table packed with `w` bits per element. -/
def entry (table w i : Nat) : Nat := (table >>> (w * i)) % 2 ^ w

/-- Row `unicode_pages[k]`: 32 elements of 9 bits. -/
def page (k : Nat) : Nat := entry upTable 288 (entry pagesTable 9 k)

/-- `(_runeinfo(ch) >> TYPES_OFFSET) & TYPES_MASK`, pire/stub/unidata_h.h:129-134, 137: characters beyond the BMP are
treated like the private use character U+E001. -/
def runeInfo (ch : Nat) : Nat :=
  let ch := if ch > 0xFFFF then 0xE001 else ch
  entry (page ((ch >>> 5) % 2048)) 9 (ch % 32)

/-- `wc_info`, pire/stub/unidata_h.h:135-138. -/
def wcInfo (ch : Nat) : Nat := entry unicodeTypesTable 32 (runeInfo ch)

/-- `i >> SVAL_OFFSET` for a 32-bit `i` read as a signed number, pire/stub/unidata_h.h:111, 376-382. -/
def sval (i : Nat) : Int := if i ≥ 2 ^ 31 then ((i >>> 22 : Nat) : Int) - 1024 else ((i >>> 22 : Nat) : Int)

/-- `(wchar32) x`. -/
def wrap32 (x : Int) : Nat := (x % 2 ^ 32).toNat

/-- `to_lower` once the properties `i` of the character are known, pire/stub/unidata_h.h:377. -/
def lowerOf (i ch : Nat) : Nat := wrap32 ((ch : Int) + if i.testBit 6 then sval i else 0)

/-- `to_lower`, pire/stub/unidata_h.h:374-378. -/
def toLower (ch : Nat) : Nat := lowerOf (wcInfo ch) ch

/-- `to_upper` once the properties `i` of the character are known, pire/stub/unidata_h.h:382. -/
def upperOf (i ch : Nat) : Nat := wrap32 ((ch : Int) - if i.testBit 7 then sval i else 0)

/-- `to_upper`, pire/stub/unidata_h.h:379-383. -/
def toUpper (ch : Nat) : Nat := upperOf (wcInfo ch) ch

/-- `is_upper`, pire/stub/unidata_h.h:429-432: the type of the character is `Lu_UPPER = 1`. -/
def isUpper (ch : Nat) : Bool := wcInfo ch % 64 == 1

/-- `is_digit`, pire/stub/unidata_h.h:279-282, 460: the type of the character is `Nd_DIGIT = 16`. -/
def isDigit (ch : Nat) : Bool := wcInfo ch % 64 == 16

end Pire.Unidata
