import Verif.Model.Align
import Verif.Proofs.RunMulti
import Mathlib.Tactic.Ring

/-!
# Bit tricks: byte search and alignment
-/

namespace Pire

/-! ### Bytewise view of bit operations -/

theorem land_split (a b c d : Nat) (ha : a < 256) (hc : c < 256) :
    (a + 256 * b) &&& (c + 256 * d) = (a &&& c) + 256 * (b &&& d) := by
  have h1 : ((a + 256 * b) &&& (c + 256 * d)) / 2 ^ 8 = (b &&& d) := by
    rw [Nat.and_div_two_pow]; congr 1 <;> omega
  have h2 : ((a + 256 * b) &&& (c + 256 * d)) % 2 ^ 8 = (a &&& c) := by
    rw [Nat.and_mod_two_pow]; congr 1 <;> omega
  omega

theorem xor_split (a b c d : Nat) (ha : a < 256) (hc : c < 256) :
    (a + 256 * b) ^^^ (c + 256 * d) = (a ^^^ c) + 256 * (b ^^^ d) := by
  have h1 : ((a + 256 * b) ^^^ (c + 256 * d)) / 2 ^ 8 = (b ^^^ d) := by
    rw [Nat.xor_div_two_pow]; congr 1 <;> omega
  have h2 : ((a + 256 * b) ^^^ (c + 256 * d)) % 2 ^ 8 = (a ^^^ c) := by
    rw [Nat.xor_mod_two_pow]; congr 1 <;> omega
  omega

theorem land_lt_256 {a : Nat} (b : Nat) (ha : a < 256) : a &&& b < 256 := lt_of_le_of_lt Nat.and_le_left ha

/-- `n` copies of the byte `c`. -/
def repByte (c : Nat) : Nat → Nat
  | 0 => 0
  | n + 1 => c + 256 * repByte c n

/-- The zero-byte test on `n`-byte numbers. -/
def zeroTest (n x : Nat) : Nat :=
  (((256 ^ n - repByte 1 n) + x) % 256 ^ n) &&& (256 ^ n - 1 - x) &&& repByte 128 n

/-- Some byte of `x` is zero. -/
def HasZero (n x : Nat) : Prop := ∃ i < n, byteOf x i = 0

theorem repByte_le (c n : Nat) (hc : c < 256) : repByte c n < 256 ^ n := by
  induction n with
  | zero => simp [repByte]
  | succ n ih => rw [repByte, pow_succ]; omega

theorem byteOf_eq (x i : Nat) : byteOf x i = x / 256 ^ i % 256 := by
  unfold byteOf
  rw [Nat.shiftRight_eq_div_pow, show (0xFF : Nat) = 2 ^ 8 - 1 from rfl, Nat.and_two_pow_sub_one_eq_mod, Nat.pow_mul]

theorem byteOf_zero_split (b y : Nat) (hb : b < 256) : byteOf (b + 256 * y) 0 = b := by
  rw [byteOf_eq]; omega

theorem byteOf_succ_split (b y i : Nat) (hb : b < 256) : byteOf (b + 256 * y) (i + 1) = byteOf y i := by
  rw [byteOf_eq, byteOf_eq, pow_succ', ← Nat.div_div_eq_div_mul]
  congr 2
  omega

theorem hasZero_succ (n b y : Nat) (hb : b < 256) : HasZero (n + 1) (b + 256 * y) ↔ b = 0 ∨ HasZero n y := by
  constructor
  · rintro ⟨i, hi, h⟩
    cases i with
    | zero => rw [byteOf_zero_split _ _ hb] at h; exact .inl h
    | succ i => rw [byteOf_succ_split _ _ _ hb] at h; exact .inr ⟨i, by omega, h⟩
  · rintro (rfl | ⟨i, hi, h⟩)
    · exact ⟨0, by omega, byteOf_zero_split _ _ hb⟩
    · exact ⟨i + 1, by omega, by rw [byteOf_succ_split _ _ _ hb]; exact h⟩

theorem zeroTest_ne (n x : Nat) (hx : x < 256 ^ n) : zeroTest n x ≠ 0 ↔ HasZero n x := by
  induction n generalizing x with
  | zero => simp [zeroTest, HasZero, repByte]
  | succ n ih =>
    obtain ⟨b, y, hb, rfl⟩ : ∃ b y, b < 256 ∧ x = b + 256 * y := ⟨x % 256, x / 256, Nat.mod_lt _ (by omega), by omega⟩
    have hy : y < 256 ^ n := by rw [pow_succ] at hx; omega
    have h1 := repByte_le 1 n (by omega)
    rw [hasZero_succ _ _ _ hb, ← ih y hy]
    set P := 256 ^ n with hP
    have hnot : 256 ^ (n + 1) - 1 - (b + 256 * y) = (255 - b) + 256 * (P - 1 - y) := by rw [pow_succ]; omega
    by_cases hb0 : b = 0
    · subst hb0
      simp only [true_or, iff_true]
      -- the low byte of the difference is 0xFF
      obtain ⟨z, hz⟩ : ∃ z, ((256 ^ (n + 1) - repByte 1 (n + 1)) + (0 + 256 * y)) % 256 ^ (n + 1) = 255 + 256 * z := by
        have e : (256 ^ (n + 1) - repByte 1 (n + 1)) + (0 + 256 * y) = 255 + 256 * (P - 1 - repByte 1 n + y) := by
          rw [repByte, pow_succ]; omega
        rw [e]
        refine ⟨(P - 1 - repByte 1 n + y) % P, ?_⟩
        rw [pow_succ']
        rw [Nat.mod_mul]
        congr 1
        · omega
        · congr 2; omega
      unfold zeroTest
      rw [hz, hnot, repByte, land_split _ _ _ _ (by omega) (by omega), land_split _ _ _ _ (by decide) (by omega)]
      have : 255 &&& (255 - 0) &&& 128 = 128 := by decide
      omega
    · simp only [hb0, false_or]
      have hsub : ((256 ^ (n + 1) - repByte 1 (n + 1)) + (b + 256 * y)) % 256 ^ (n + 1) = (b - 1) + 256 * (((P - repByte 1 n) + y) % P) := by
        have e : (256 ^ (n + 1) - repByte 1 (n + 1)) + (b + 256 * y) = (b - 1) + 256 * (P - repByte 1 n + y) := by
          rw [repByte, pow_succ]; omega
        rw [e, pow_succ', Nat.mod_mul]
        congr 1
        · omega
        · congr 2; omega
      have key : ∀ b < 256, b ≠ 0 → (b - 1) &&& (255 - b) &&& 128 = 0 := by
        have h : ∀ b : Fin 256, b.val ≠ 0 → (b.val - 1) &&& (255 - b.val) &&& 128 = 0 := by decide +kernel
        exact fun b hb => h ⟨b, hb⟩
      unfold zeroTest
      rw [hsub, hnot, repByte, land_split _ _ _ _ (by omega) (by omega),
        land_split _ _ _ _ (land_lt_256 _ (by omega)) (by omega), key b hb hb0]
      rw [Nat.zero_add, ← hP]
      constructor
      · intro h h'; apply h; rw [h']
      · intro h h'; apply h; omega

theorem checkBytes_toNat (mask chunk : BitVec 64) : (checkBytes mask chunk).toNat = zeroTest 8 (chunk ^^^ mask).toNat := by
  unfold checkBytes zeroTest
  simp only [BitVec.toNat_and, BitVec.toNat_sub, BitVec.toNat_not]
  congr 2

theorem xor_zero_iff (a b : Nat) : a ^^^ b = 0 ↔ a = b := by
  constructor
  · intro h
    have : (a ^^^ b) ^^^ b = b := by rw [h, Nat.zero_xor]
    rwa [Nat.xor_assoc, Nat.xor_self, Nat.xor_zero] at this
  · rintro rfl; exact Nat.xor_self a

theorem checkBytes_ne (mask chunk : BitVec 64) :
    checkBytes mask chunk ≠ 0#64 ↔ ∃ i < 8, byteOf chunk.toNat i = byteOf mask.toNat i := by
  have h : checkBytes mask chunk ≠ 0#64 ↔ (checkBytes mask chunk).toNat ≠ 0 := by
    rw [not_iff_not]
    constructor
    · intro h; rw [h]; rfl
    · intro h; exact BitVec.eq_of_toNat_eq h
  rw [h, checkBytes_toNat, zeroTest_ne _ _ (by simpa using (chunk ^^^ mask).isLt)]
  unfold HasZero
  refine exists_congr fun i => and_congr_right fun hi => ?_
  rw [BitVec.toNat_xor, byteOf_eq, byteOf_eq, byteOf_eq, show (256 : Nat) = 2 ^ 8 from rfl, ← pow_mul, Nat.xor_div_two_pow,
    Nat.xor_mod_two_pow]
  exact xor_zero_iff _ _

theorem fillSizeT_eq (c : Nat) (hc : c < 256) : fillSizeT c = repByte c 8 := by
  unfold fillSizeT
  have h0 : c &&& 0xFF = c := by
    rw [show (0xFF : Nat) = 2 ^ 8 - 1 from rfl, Nat.and_two_pow_sub_one_eq_mod]; exact Nat.mod_eq_of_lt hc
  simp only [h0]
  have e1 : (c <<< 8) ||| c = c * 257 := by
    rw [← Nat.shiftLeft_add_eq_or_of_lt (by omega), Nat.shiftLeft_eq]; ring
  have e2 : ((c * 257) <<< 16) ||| (c * 257) = c * 0x1010101 := by
    rw [← Nat.shiftLeft_add_eq_or_of_lt (by omega), Nat.shiftLeft_eq]; ring
  have e3 : ((c * 0x1010101) <<< 32) ||| (c * 0x1010101) = c * 0x101010101010101 := by
    rw [← Nat.shiftLeft_add_eq_or_of_lt (by omega), Nat.shiftLeft_eq]; ring
  rw [e1, e2, e3]
  simp only [repByte]
  ring

theorem byteOf_repByte (c : Nat) (hc : c < 256) (n i : Nat) (hi : i < n) : byteOf (repByte c n) i = c := by
  induction n generalizing i with
  | zero => omega
  | succ n ih =>
    rw [repByte]
    cases i with
    | zero => exact byteOf_zero_split _ _ hc
    | succ i => rw [byteOf_succ_split _ _ _ hc]; exact ih i (by omega)

theorem byteOf_fill (c : Nat) (hc : c < 256) (i : Nat) (hi : i < 8) : byteOf (fillSizeT c) i = c := by
  rw [fillSizeT_eq c hc]; exact byteOf_repByte c hc 8 i hi

theorem byteOf_readLE (mem : Mem) (p n i : Nat) (hi : i < n) : byteOf (Scn.readLE mem p n) i = (mem (p + i)).val := by
  induction n generalizing p i with
  | zero => omega
  | succ n ih =>
    rw [Scn.readLE]
    cases i with
    | zero => rw [byteOf_zero_split _ _ (mem p).isLt]; rfl
    | succ i =>
      rw [byteOf_succ_split _ _ _ (mem p).isLt, ih (p + 1) i (by omega)]
      congr 2; omega

theorem readLE_lt (mem : Mem) (p n : Nat) : Scn.readLE mem p n < 256 ^ n := by
  induction n generalizing p with
  | zero => simp [Scn.readLE]
  | succ n ih =>
    rw [Scn.readLE, pow_succ]
    have := ih (p + 1)
    have := (mem p).isLt
    omega

theorem sse2_sound : Scn.Isa.Sound sse2 where
  pos := by decide
  dvd := by decide
  any := by
    intro c hc mem p
    unfold sse2
    simp only [List.any_eq_true, List.mem_range, beq_iff_eq]
    refine exists_congr fun i => and_congr_right fun hi => ?_
    rw [byteOf_fill c hc _ (Nat.mod_lt _ (by omega))]

theorem mmx_sound : Scn.Isa.Sound mmx where
  pos := by decide
  dvd := by decide
  any := by
    intro c hc mem p
    unfold mmx
    simp only [List.any_eq_true, List.mem_range, beq_iff_eq]
    refine exists_congr fun i => and_congr_right fun hi => ?_
    rw [byteOf_fill c hc _ hi]

theorem basicIsa_sound : Scn.Isa.Sound basicIsa where
  pos := by decide
  dvd := by decide
  any := by
    intro c hc mem p
    have h1 : (BitVec.ofNat 64 (fillSizeT c)).toNat = fillSizeT c := by
      rw [BitVec.toNat_ofNat]
      apply Nat.mod_eq_of_lt
      rw [fillSizeT_eq c hc]
      exact repByte_le c 8 hc
    have h2 : (BitVec.ofNat 64 (Scn.readLE mem p 8)).toNat = Scn.readLE mem p 8 := by
      rw [BitVec.toNat_ofNat]
      exact Nat.mod_eq_of_lt (readLE_lt mem p 8)
    show (checkBytes (BitVec.ofNat 64 (fillSizeT c)) (BitVec.ofNat 64 (Scn.readLE mem p 8)) != 0#64) = true ↔
      ∃ i < 8, (mem (p + i)).val = c
    rw [bne_iff_ne, checkBytes_ne, h1, h2]
    refine exists_congr fun i => and_congr_right fun hi => ?_
    rw [byteOf_fill c hc i hi, byteOf_readLE mem p 8 i hi]

/-! ### Alignment -/

theorem two_pow_sub_one_toNat {k : Nat} (hk : k < 64) : (BitVec.ofNat 64 (2 ^ k) - 1#64).toNat = 2 ^ k - 1 := by
  have h2 : 2 ^ k < 2 ^ 64 := Nat.pow_lt_pow_right (by omega) hk
  have h1 : 1 ≤ 2 ^ k := Nat.one_le_two_pow
  rw [BitVec.toNat_sub_of_le]
  · rw [BitVec.toNat_ofNat, Nat.mod_eq_of_lt h2]; rfl
  · rw [BitVec.le_def, BitVec.toNat_ofNat, BitVec.toNat_ofNat, Nat.mod_eq_of_lt h2]; exact h1

theorem alignDownW_toNat (t : BitVec 64) {k : Nat} (hk : k < 64) :
    (alignDownW t (BitVec.ofNat 64 (2 ^ k))).toNat = Scn.alignDown t.toNat (2 ^ k) := by
  unfold alignDownW Scn.alignDown
  apply Nat.eq_of_testBit_eq
  intro i
  rw [BitVec.toNat_and, Nat.testBit_and, BitVec.toNat_not, two_pow_sub_one_toNat hk, Nat.mul_comm, Nat.testBit_two_pow_mul,
    Nat.testBit_div_two_pow]
  have hlt : 2 ^ k - 1 < 2 ^ 64 := by
    have := Nat.pow_lt_pow_right (a := 2) (by omega) hk
    omega
  rw [show 2 ^ 64 - 1 - (2 ^ k - 1) = 2 ^ 64 - ((2 ^ k - 1) + 1) by omega, Nat.testBit_two_pow_sub_succ hlt, Nat.testBit_two_pow_sub_one]
  by_cases hik : k ≤ i
  · rw [show i - k + k = i by omega]
    by_cases hi : i < 64
    · simp [hik, hi]
    · have : t.toNat.testBit i = false := Nat.testBit_lt_two_pow (lt_of_lt_of_le t.isLt (Nat.pow_le_pow_right (by omega) (by omega)))
      simp [this]
  · simp [hik]; omega

theorem alignUpW_toNat (t : BitVec 64) {k : Nat} (hk : k < 64) (h : t.toNat + 2 ^ k ≤ 2 ^ 64) :
    (alignUpW t (BitVec.ofNat 64 (2 ^ k))).toNat = Scn.alignUp t.toNat (2 ^ k) := by
  have := alignDownW_toNat (t + (BitVec.ofNat 64 (2 ^ k) - 1#64)) hk
  have h1 : 1 ≤ 2 ^ k := Nat.one_le_two_pow
  rw [BitVec.toNat_add, two_pow_sub_one_toNat hk, Nat.mod_eq_of_lt (by omega)] at this
  exact this

theorem isAlignedW_iff (t : BitVec 64) {k : Nat} (hk : k < 64) :
    isAlignedW t (BitVec.ofNat 64 (2 ^ k)) = true ↔ t.toNat % 2 ^ k = 0 := by
  unfold isAlignedW
  rw [beq_iff_eq, ← BitVec.toNat_inj, BitVec.toNat_and, two_pow_sub_one_toNat hk, Nat.and_two_pow_sub_one_eq_mod]
  rfl

end Pire
