import Verif.Model.Unidata
import Mathlib.Tactic.Ring
import Mathlib.Tactic.NormNum
import Mathlib.Order.Basic

/-!
# Facts about the Unicode tables, checked by kernel computation over the whole table
-/

namespace Pire.Unidata

/-- `p` holds on the `2^k` numbers from `lo`. -/
def checkRange (p : Nat → Bool) : Nat → Nat → Bool
  | 0, lo => p lo
  | k + 1, lo => checkRange p k lo && checkRange p k (lo + 2 ^ k)

theorem checkRange_spec {p : Nat → Bool} : ∀ {k lo : Nat}, checkRange p k lo = true → ∀ c, lo ≤ c → c < lo + 2 ^ k → p c = true
  | 0, lo, h, c, h1, h2 => by
    have : c = lo := by simp at h2; omega
    subst this; exact h
  | k + 1, lo, h, c, h1, h2 => by
    simp only [checkRange, Bool.and_eq_true] at h
    rcases Nat.lt_or_ge c (lo + 2 ^ k) with h3 | h3
    · exact checkRange_spec h.1 c h1 h3
    · exact checkRange_spec h.2 c h3 (by rw [Nat.pow_succ] at h2; omega)

/-- Evaluates `n` before `f n`. -/
def force (n : Nat) (f : Nat → Bool) : Bool :=
  match n with
  | 0 => f 0
  | m + 1 => f (m + 1)

theorem force_eq (n : Nat) (f : Nat → Bool) : force n f = f n := by cases n <;> rfl

/-- `p (properties of c) c` for the characters of one row. -/
def checkPage (p : Nat → Nat → Bool) (k : Nat) : Bool :=
  force (page k) fun pg => checkRange (fun j => force (entry unicodeTypesTable 32 (entry pg 9 j)) fun i => p i (32 * k + j)) 5 0

theorem checkPage_spec {p : Nat → Nat → Bool} (h : checkRange (checkPage p) 11 0 = true) {c : Nat} (hc : c < 0x10000) :
    p (wcInfo c) c = true := by
  have h1 := checkRange_spec h (c / 32) (by omega) (by norm_num; omega)
  rw [checkPage, force_eq] at h1
  have h2 := checkRange_spec h1 (c % 32) (by omega) (by norm_num; omega)
  simp only [force_eq] at h2
  have h3 : wcInfo c = entry unicodeTypesTable 32 (entry (page (c / 32)) 9 (c % 32)) := by
    have e : (c >>> 5) % 2048 = c / 32 := by
      rw [Nat.shiftRight_eq_div_pow]; norm_num; omega
    unfold wcInfo runeInfo
    simp only [if_neg (show ¬ c > 0xFFFF by omega), e]
  rw [← h3, show 32 * (c / 32) + c % 32 = c by omega] at h2
  exact h2

/-- The four titlecase letters: neither their own upper nor their own lower case. -/
def isTitle (c : Nat) : Bool := c == 0x1C5 || c == 0x1C8 || c == 0x1CB || c == 0x1F2

/-- What is checked for every character of the BMP. -/
def checkCase (i c : Nat) : Bool :=
  force (lowerOf i c) fun l => force (upperOf i c) fun u =>
    (Nat.beq c 0xB5 || Nat.blt u 0x10000) && Nat.blt l 0x10000 &&
    (Nat.beq c u || Nat.beq c l || isTitle c) &&
    (Nat.beq (c / 256 % 256) 0xF0 || (!Nat.beq (l / 256 % 256) 0xF0 && !Nat.beq (u / 256 % 256) 0xF0))

set_option maxRecDepth 100000 in
theorem checkCase_all : checkRange (checkPage checkCase) 11 0 = true := by decide +kernel

theorem case_all {c : Nat} (hc : c < 0x10000) : (c ≠ 0xB5 → toUpper c < 0x10000) ∧ toLower c < 0x10000 ∧
    (isTitle c = false → c = toUpper c ∨ c = toLower c) ∧
    (c / 256 % 256 ≠ 0xF0 → toLower c / 256 % 256 ≠ 0xF0 ∧ toUpper c / 256 % 256 ≠ 0xF0) := by
  have h := checkPage_spec checkCase_all hc
  simp only [checkCase, force_eq] at h
  change ((Nat.beq c 0xB5 || Nat.blt (toUpper c) 0x10000) && Nat.blt (toLower c) 0x10000 &&
    (Nat.beq c (toUpper c) || Nat.beq c (toLower c) || isTitle c) &&
    (Nat.beq (c / 256 % 256) 0xF0 || (!Nat.beq (toLower c / 256 % 256) 0xF0 && !Nat.beq (toUpper c / 256 % 256) 0xF0))) = true at h
  simp only [Bool.and_eq_true, Bool.or_eq_true, Nat.beq_eq, Nat.blt_eq, Bool.not_eq_true'] at h
  refine ⟨fun h' => h.1.1.1.resolve_left h', h.1.1.2, fun h' => ?_, fun h' => ?_⟩
  · rw [h'] at h
    exact h.1.2.resolve_right (by decide)
  · have := h.2.resolve_left h'
    exact ⟨Nat.ne_of_beq_eq_false this.1, Nat.ne_of_beq_eq_false this.2⟩

theorem case_spec {c : Nat} (hc : c < 0x10000) : (c ≠ 0xB5 → toUpper c < 0x10000) ∧ toLower c < 0x10000 ∧
    (isTitle c = false → c = toUpper c ∨ c = toLower c) := ⟨(case_all hc).1, (case_all hc).2.1, (case_all hc).2.2.1⟩

theorem wrap32_nat {c : Nat} (h : c < 2 ^ 32) : wrap32 (c : Int) = c := by
  unfold wrap32; omega

/-- Beyond the BMP there is no case. -/
theorem case_astral {c : Nat} (h : 0xFFFF < c) (h2 : c < 2 ^ 32) : toLower c = c ∧ toUpper c = c := by
  have e : wcInfo c = wcInfo 0x10000 := by
    unfold wcInfo runeInfo
    simp only [if_pos (show c > 0xFFFF from h), if_pos (show 0x10000 > 0xFFFF by omega)]
  have e1 : (wcInfo 0x10000).testBit 6 = false := by decide +kernel
  have e2 : (wcInfo 0x10000).testBit 7 = false := by decide +kernel
  constructor
  · unfold toLower lowerOf
    rw [e, e1]; simpa using wrap32_nat h2
  · unfold toUpper upperOf
    rw [e, e2]; simpa using wrap32_nat h2

/-- `p (properties of c) c` on 256 characters from `256 * k`. -/
theorem check256 {p : Nat → Nat → Bool} {k : Nat} (h : checkRange (checkPage p) 3 (8 * k) = true) (hk : k < 256) {c : Nat}
    (h1 : 256 * k ≤ c) (h2 : c < 256 * k + 256) : p (wcInfo c) c = true := by
  have h1 := checkRange_spec h (c / 32) (by omega) (by norm_num; omega)
  rw [checkPage, force_eq] at h1
  have h2 := checkRange_spec h1 (c % 32) (by omega) (by norm_num; omega)
  simp only [force_eq] at h2
  have h3 : wcInfo c = entry unicodeTypesTable 32 (entry (page (c / 32)) 9 (c % 32)) := by
    have e : (c >>> 5) % 2048 = c / 32 := by
      rw [Nat.shiftRight_eq_div_pow]; norm_num; omega
    unfold wcInfo runeInfo
    simp only [if_neg (show ¬ c > 0xFFFF by omega), e]
  rw [← h3, show 32 * (c / 32) + c % 32 = c by omega] at h2
  exact h2

/-- The private use characters that stand for escaped characters in the lexer have no case and are no digits. -/
theorem control_case {c : Nat} (h1 : 0xF000 ≤ c) (h2 : c < 0xF100) :
    toLower c = c ∧ toUpper c = c ∧ isDigit c = false := by
  have h := check256 (p := fun i c => Nat.beq (lowerOf i c) c && Nat.beq (upperOf i c) c && !(i % 64 == 16)) (k := 240)
    (by decide +kernel) (by omega) (c := c) (by omega) (by omega)
  simp only [Bool.and_eq_true, Nat.beq_eq, Bool.not_eq_true'] at h
  exact ⟨h.1.1, h.1.2, h.2⟩

/-- Digits, capital letters and case in the first 256 characters. -/
theorem latin_spec {c : Nat} (h : c < 256) :
    (isDigit c = true ↔ 48 ≤ c ∧ c ≤ 57) ∧
    (c < 128 → (isUpper c = true ↔ 65 ≤ c ∧ c ≤ 90) ∧
      toLower c = (if 65 ≤ c ∧ c ≤ 90 then c + 32 else c) ∧ toUpper c = (if 97 ≤ c ∧ c ≤ 122 then c - 32 else c)) := by
  have h := check256 (p := fun i c => ((i % 64 == 16) == decide (48 ≤ c ∧ c ≤ 57)) &&
      (decide (128 ≤ c) || (((i % 64 == 1) == decide (65 ≤ c ∧ c ≤ 90)) &&
        Nat.beq (lowerOf i c) (if 65 ≤ c ∧ c ≤ 90 then c + 32 else c) &&
        Nat.beq (upperOf i c) (if 97 ≤ c ∧ c ≤ 122 then c - 32 else c)))) (k := 0)
    (by decide +kernel) (by omega) (c := c) (by omega) (by omega)
  simp only [Bool.and_eq_true, Bool.or_eq_true, Nat.beq_eq, decide_eq_true_eq] at h
  refine ⟨?_, fun h3 => ⟨?_, ?_, ?_⟩⟩
  · have := h.1
    unfold isDigit
    rw [eq_of_beq this, decide_eq_true_eq]
  · have := (h.2.resolve_left (by omega)).1.1
    unfold isUpper
    rw [eq_of_beq this, decide_eq_true_eq]
  · exact (h.2.resolve_left (by omega)).1.2
  · exact (h.2.resolve_left (by omega)).2

end Pire.Unidata
