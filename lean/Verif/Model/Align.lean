import Verif.Model.RunMulti

/-!
# `pire/align.h` on 64-bit machine words
-/

namespace Pire

/-- `AlignUp`, pire/align.h:36-40, on a 64-bit `size_t`. -/
def alignUpW (t bound : BitVec 64) : BitVec 64 := (t + (bound - 1#64)) &&& ~~~(bound - 1#64)

/-- `AlignDown`, pire/align.h:42-46. -/
def alignDownW (t bound : BitVec 64) : BitVec 64 := t &&& ~~~(bound - 1#64)

/-- `IsAligned`, pire/align.h:80-84. -/
def isAlignedW (t bound : BitVec 64) : Bool := (t &&& (bound - 1#64)) == 0#64

end Pire
