/-!
# `BitSet` — pire/vbitset.h

A vector of bytes. In a release build positions are not checked (`VBITSET_CHECK_SIZE`, pire/vbitset.h:33-37): `none` = the byte
accessed is outside of the vector.
-/

namespace Pire

/-- `BitSet`, pire/vbitset.h:97-100. -/
structure BitSet where
  data : List Nat
  size : Nat
deriving DecidableEq, Repr

namespace BitSet

/-- `RoundUp`, pire/vbitset.h:102. -/
def roundUp (x : Nat) : Nat := x / 8 + if x % 8 ≠ 0 then 1 else 0

/-- `m_data[i]` in the code below: a change of one byte; `none` = out of bounds. -/
def modify (b : BitSet) (i : Nat) (g : Nat → Nat) : Option BitSet :=
  if i < b.data.length then some { b with data := b.data.modify i g } else none

/-- `Set`, pire/vbitset.h:67-69. The result of `|=` is converted to `unsigned char`. -/
def set (b : BitSet) (pos : Nat) : Option BitSet := b.modify (pos / 8) fun d => (d ||| 1 <<< (pos % 8)) % 256

/-- `Reset`, pire/vbitset.h:72-74, with 32-bit `~`. -/
def reset (b : BitSet) (pos : Nat) : Option BitSet := b.modify (pos / 8) fun d => (d &&& (2 ^ 32 - 1 - 1 <<< (pos % 8))) % 256

/-- `Test`, pire/vbitset.h:77-79. -/
def test (b : BitSet) (pos : Nat) : Option Bool := b.data[pos / 8]?.map fun d => d &&& 1 <<< (pos % 8) != 0

/-- `BitSet(size)`, pire/vbitset.h:53-58: `size` bits, and one more bit past them, set to one. -/
def ofSize (size : Nat) : BitSet :=
  let b : BitSet := { data := List.replicate (roundUp (size + 1) + 1) 0, size := size }
  (b.modify (size / 8) fun d => (d ||| 1 <<< (size % 8)) % 256).getD b

/-- `Clear`, pire/vbitset.h:94. -/
def clear (b : BitSet) : BitSet := { b with data := List.replicate b.data.length 0 }

/-- `Resize`, pire/vbitset.h:85-91 (`m_size` is not changed). -/
def resize (b : BitSet) (newsize : Nat) : Option BitSet :=
  let n := roundUp (newsize + 1)
  let b := { b with data := b.data.take n ++ List.replicate (n - b.data.length) 0 }
  let b := if newsize % 8 ≠ 0 ∧ b.data ≠ [] then
      { b with data := b.data.modify (b.data.length - 1) fun d => d &&& (1 <<< (newsize % 8) - 1) }
    else b
  b.modify (newsize / 8) fun d => (d ||| 1 <<< (newsize % 8)) % 256

end BitSet
end Pire
