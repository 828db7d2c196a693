import Verif.Model.Memory
import Mathlib.Tactic.Ring

/-!
# Reading what was written
-/

namespace Pire
open Scn

theorem readLE_congr {mem mem' : Mem} {a n : Nat} (h : ∀ i < n, mem (a + i) = mem' (a + i)) :
    readLE mem a n = readLE mem' a n := by
  induction n generalizing a with
  | zero => rfl
  | succ n ih =>
    rw [readLE, readLE, ih (a := a + 1) (fun i hi => by
      have := h (i + 1) (by omega)
      rwa [show a + (i + 1) = a + 1 + i by omega] at this)]
    have := h 0 (by omega)
    rw [Nat.add_zero] at this
    rw [this]

theorem readLE_shift_base {mem mem' : Mem} {a b n : Nat} (h : ∀ i < n, mem (a + i) = mem' (b + i)) :
    readLE mem a n = readLE mem' b n := by
  induction n generalizing a b with
  | zero => rfl
  | succ n ih =>
    rw [readLE, readLE, ih (a := a + 1) (b := b + 1) (fun i hi => by
      have := h (i + 1) (by omega)
      rwa [show a + (i + 1) = a + 1 + i by omega, show b + (i + 1) = b + 1 + i by omega] at this)]
    have := h 0 (by omega)
    rw [Nat.add_zero, Nat.add_zero] at this
    rw [this]

theorem readLE_bytes {mem : Mem} {a n v : Nat} (h : ∀ i < n, mem (a + i) = byteFin v i) : readLE mem a n = v % 256 ^ n := by
  induction n generalizing a v with
  | zero => simp [readLE, Nat.mod_one]
  | succ n ih =>
    rw [readLE, ih (v := v / 256) (fun i hi => by
      have := h (i + 1) (by omega)
      rw [show a + (i + 1) = a + 1 + i by omega] at this
      rw [this]
      unfold byteFin
      congr 2
      rw [Nat.pow_succ', Nat.div_div_eq_div_mul])]
    have := h 0 (by omega)
    rw [Nat.add_zero] at this
    rw [this, Nat.pow_succ', Nat.mod_mul]
    simp [byteFin]

theorem readLE_write_same (mem : Mem) (a n v : Nat) : readLE (writeLE mem a n v) a n = v % 256 ^ n := by
  apply readLE_bytes
  intro i hi
  unfold writeLE
  rw [if_pos (by omega), Nat.add_sub_cancel_left]

theorem readLE_write_disj (mem : Mem) {a n v b k : Nat} (h : a + n ≤ b ∨ b + k ≤ a) :
    readLE (writeLE mem a n v) b k = readLE mem b k := by
  apply readLE_congr
  intro i hi
  unfold writeLE
  rw [if_neg (by omega)]

theorem readLE_lt' (mem : Mem) (p n : Nat) : Scn.readLE mem p n < 256 ^ n := by
  induction n generalizing p with
  | zero => simp [Scn.readLE]
  | succ n ih =>
    rw [Scn.readLE, pow_succ]
    have := ih (p + 1)
    have := (mem p).isLt
    omega

end Pire
