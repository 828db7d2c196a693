import Verif.Model.BitSet
import Mathlib.Data.Nat.Bitwise
import Mathlib.Data.Finset.Basic
import Mathlib.Tactic.Common

/-!
# BitSet: bits
-/

namespace Pire
namespace BitSet

/-- Bit number `p` of the vector. -/
def bit (b : BitSet) (p : Nat) : Bool := (b.data.getD (p / 8) 0).testBit (p % 8)

theorem test_eq {b : BitSet} {p : Nat} (h : p / 8 < b.data.length) : b.test p = some (b.bit p) := by
  unfold test bit
  rw [List.getElem?_eq_getElem h, Option.map_some, List.getD_eq_getElem?_getD, List.getElem?_eq_getElem h, Option.getD_some,
    Nat.one_shiftLeft, Nat.and_two_pow]
  cases hb : (b.data[p / 8]).testBit (p % 8)
  · simp
  · simp

theorem modify_eq {b : BitSet} {i : Nat} {g : Nat → Nat} (h : i < b.data.length) :
    b.modify i g = some { b with data := b.data.modify i g } := if_pos h

theorem bit_modify {b : BitSet} {i : Nat} {g : Nat → Nat} {q : Nat} (hi : i < b.data.length) :
    (BitSet.mk (b.data.modify i g) b.size).bit q = if q / 8 = i then (g (b.data.getD i 0)).testBit (q % 8) else b.bit q := by
  unfold bit
  simp only
  rw [List.getD_eq_getElem?_getD, List.getElem?_modify]
  split
  · rename_i h
    subst h
    rw [List.getElem?_eq_getElem hi, List.getD_eq_getElem?_getD, List.getElem?_eq_getElem hi]
    simp
  · rename_i h
    rw [if_neg (Ne.symm h), List.getD_eq_getElem?_getD]
    simp

theorem set_spec {b : BitSet} {p : Nat} (h : p / 8 < b.data.length) :
    ∃ b', b.set p = some b' ∧ b'.size = b.size ∧ b'.data.length = b.data.length ∧ ∀ q, b'.bit q = (decide (q = p) || b.bit q) := by
  refine ⟨_, modify_eq h, rfl, by simp, fun q => ?_⟩
  rw [bit_modify h]
  split
  · rename_i hq
    have e : (256 : Nat) = 2 ^ 8 := rfl
    have hm : q % 8 < 8 := Nat.mod_lt _ (by omega)
    rw [e, Nat.testBit_mod_two_pow, Nat.testBit_or, Nat.one_shiftLeft, Nat.testBit_two_pow, ← hq]
    have : decide (p % 8 = q % 8) = decide (q = p) := by
      apply decide_eq_decide.2
      omega
    unfold bit
    rw [this, decide_eq_true hm, Bool.true_and, Bool.or_comm]
  · rename_i hq
    have : decide (q = p) = false := decide_eq_false fun hx => hq (by rw [hx])
    rw [this, Bool.false_or]

theorem reset_spec {b : BitSet} {p : Nat} (h : p / 8 < b.data.length) :
    ∃ b', b.reset p = some b' ∧ b'.size = b.size ∧ b'.data.length = b.data.length ∧ ∀ q, b'.bit q = (!decide (q = p) && b.bit q) := by
  refine ⟨_, modify_eq h, rfl, by simp, fun q => ?_⟩
  rw [bit_modify h]
  split
  · rename_i hq
    have e : (256 : Nat) = 2 ^ 8 := rfl
    have hm : q % 8 < 8 := Nat.mod_lt _ (by omega)
    have hp : p % 8 < 8 := Nat.mod_lt _ (by omega)
    have hlt : 2 ^ (p % 8) < 2 ^ 32 := Nat.pow_lt_pow_right (by omega) (by omega)
    have e2 : 2 ^ 32 - 1 - 1 <<< (p % 8) = 2 ^ 32 - (2 ^ (p % 8) + 1) := by rw [Nat.one_shiftLeft]; omega
    rw [e, Nat.testBit_mod_two_pow, Nat.testBit_and, e2, Nat.testBit_two_pow_sub_succ hlt, Nat.testBit_two_pow, ← hq]
    have : decide (p % 8 = q % 8) = decide (q = p) := by
      apply decide_eq_decide.2
      omega
    unfold bit
    rw [this, decide_eq_true hm, decide_eq_true (show q % 8 < 32 by omega), Bool.true_and, Bool.true_and, Bool.and_comm]
  · rename_i hq
    have : decide (q = p) = false := decide_eq_false fun hx => hq (by rw [hx])
    rw [this]; simp

theorem bit_clear (b : BitSet) (q : Nat) : b.clear.bit q = false := by
  unfold bit clear
  simp only
  rw [List.getD_eq_getElem?_getD, List.getElem?_replicate]
  split <;> simp

theorem roundUp_ge (n : Nat) : n ≤ 8 * roundUp n := by
  unfold roundUp; split <;> omega

theorem ofSize_spec (n : Nat) : (ofSize n).size = n ∧ (ofSize n).data.length = roundUp (n + 1) + 1 ∧ ∀ q, (ofSize n).bit q = decide (q = n) := by
  have hl : n / 8 < roundUp (n + 1) + 1 := by have := roundUp_ge (n + 1); omega
  have h : n / 8 < (BitSet.mk (List.replicate (roundUp (n + 1) + 1) 0) n).data.length := by simpa using hl
  unfold ofSize
  simp only
  obtain ⟨b', e, h1, h2, h3⟩ := set_spec h
  unfold set at e
  rw [e, Option.getD_some]
  refine ⟨h1, by rw [h2]; simp, fun q => ?_⟩
  rw [h3]
  have : (BitSet.mk (List.replicate (roundUp (n + 1) + 1) 0) n).bit q = false := by
    unfold bit
    simp only
    rw [List.getD_eq_getElem?_getD, List.getElem?_replicate]
    split <;> simp
  rw [this, Bool.or_false]

theorem inside {b : BitSet} {n p : Nat} (h : b.data.length = roundUp (n + 1) + 1) (hp : p ≤ n) : p / 8 < b.data.length := by
  have := roundUp_ge (n + 1); omega

theorem roundUp_succ (n : Nat) : roundUp (n + 1) = n / 8 + 1 := by
  unfold roundUp; split <;> omega

/-- The bits after the vector was brought to `n` bytes. -/
theorem bit_take (b : BitSet) (n q : Nat) :
    (BitSet.mk (b.data.take n ++ List.replicate (n - b.data.length) 0) b.size).bit q = (decide (q / 8 < n) && b.bit q) := by
  unfold bit
  simp only
  rw [List.getD_eq_getElem?_getD, List.getD_eq_getElem?_getD]
  by_cases h : q / 8 < n
  · rw [decide_eq_true h, Bool.true_and]
    by_cases h2 : q / 8 < b.data.length
    · rw [List.getElem?_append_left (by simp; omega), List.getElem?_take, if_pos h]
    · rw [List.getElem?_append_right (by simp; omega), List.getElem?_replicate, List.getElem?_eq_none (by omega : b.data.length ≤ q / 8)]
      split <;> rfl
  · rw [decide_eq_false h, Bool.false_and, List.getElem?_eq_none (by simp; omega)]
    simp

theorem resize_spec (b : BitSet) (n : Nat) :
    ∃ b', b.resize n = some b' ∧ b'.size = b.size ∧ b'.data.length = n / 8 + 1 ∧
      (∀ q < n, b'.bit q = b.bit q) ∧ b'.bit n = true := by
  unfold resize
  rw [roundUp_succ]
  dsimp only
  have hl : (b.data.take (n / 8 + 1) ++ List.replicate (n / 8 + 1 - b.data.length) 0).length = n / 8 + 1 := by simp; omega
  have hb := bit_take b (n / 8 + 1)
  generalize b.data.take (n / 8 + 1) ++ List.replicate (n / 8 + 1 - b.data.length) 0 = d at hl hb ⊢
  have main : ∃ c : BitSet, (if n % 8 ≠ 0 ∧ d ≠ [] then
      BitSet.mk (d.modify (d.length - 1) fun d => d &&& (1 <<< (n % 8) - 1)) b.size else BitSet.mk d b.size) = c ∧ c.size = b.size ∧
      c.data.length = n / 8 + 1 ∧ ∀ q < n, c.bit q = b.bit q := by
    refine ⟨_, rfl, ?_⟩
    split
    · refine ⟨rfl, by simpa using hl, fun q hq => ?_⟩
      have := @bit_modify (BitSet.mk d b.size) (d.length - 1) (fun d => d &&& (1 <<< (n % 8) - 1)) q (by simp only; omega)
      simp only at this
      rw [this]
      have hx := hb q
      rw [decide_eq_true (by omega : q / 8 < n / 8 + 1), Bool.true_and] at hx
      rw [← hx]
      split
      · rename_i e
        rw [Nat.testBit_and, Nat.one_shiftLeft, Nat.testBit_two_pow_sub_one, decide_eq_true (by omega : q % 8 < n % 8), Bool.and_true, ← e]
        rfl
      · rfl
    · refine ⟨rfl, hl, fun q hq => ?_⟩
      rw [hb, decide_eq_true (by omega : q / 8 < n / 8 + 1), Bool.true_and]
  obtain ⟨c, hc, h1, h2, h3⟩ := main
  rw [hc]
  obtain ⟨b', e, g1, g2, g3⟩ := set_spec (show n / 8 < c.data.length by omega)
  refine ⟨b', e, g1.trans h1, g2.trans h2, fun q hq => ?_, ?_⟩
  · rw [g3, h3 q hq, decide_eq_false (by omega), Bool.false_or]
  · rw [g3, decide_eq_true rfl, Bool.true_or]

end BitSet
end Pire
