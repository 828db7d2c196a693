import Verif.Model.Run

/-!
# Writing numbers to memory (little-endian)
-/

namespace Pire

/-- Byte `i` of a number. -/
def byteFin (v i : Nat) : Fin 256 := ⟨v / 256 ^ i % 256, Nat.mod_lt _ (by omega)⟩

/-- Store the low `n` bytes of `v` at address `a`. -/
def writeLE (mem : Mem) (a n v : Nat) : Mem := fun x => if a ≤ x ∧ x < a + n then byteFin v (x - a) else mem x

end Pire
