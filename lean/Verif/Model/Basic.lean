import Mathlib.Data.Finset.Lattice.Fold
import Mathlib.Data.Finset.Image
import Mathlib.Order.Lattice.Nat

/-!
# Constants and ordered sets
-/

namespace Pire

/-- `SpecialChar::Epsilon`, pire/defs.h:63. -/
abbrev Epsilon : Nat := 257
/-- `SpecialChar::BeginMark`, pire/defs.h:64. -/
abbrev BeginMark : Nat := 258
/-- `SpecialChar::EndMark`, pire/defs.h:65. -/
abbrev EndMark : Nat := 259
/-- `SpecialChar::MaxCharUnaligned`, pire/defs.h:68. -/
abbrev MaxCharUnaligned : Nat := 260
/-- `SpecialChar::MaxChar`, pire/defs.h:71, with `sizeof(void*) = 8`: 260 rounded up to a multiple of 8. -/
abbrev MaxChar : Nat := 264

/-- The elements of a `TSet<size_t>` in iteration (ascending) order. `std::set` iterates in ascending order. -/
def elems (s : Finset Nat) : List Nat := (List.range (s.sup id + 1)).filter (· ∈ s)

theorem mem_elems {s : Finset Nat} {x : Nat} : x ∈ elems s ↔ x ∈ s := by
  unfold elems
  simp only [List.mem_filter, List.mem_range, decide_eq_true_eq, and_iff_right_iff_imp]
  intro h
  have := Finset.le_sup (f := id) h
  simp only [id_eq] at this
  omega

theorem elems_sorted (s : Finset Nat) : (elems s).Pairwise (· < ·) :=
  List.Pairwise.filter _ List.pairwise_lt_range

theorem elems_nodup (s : Finset Nat) : (elems s).Nodup :=
  (elems_sorted s).imp (fun h => Nat.ne_of_lt h)

end Pire
