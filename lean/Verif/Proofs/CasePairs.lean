import Verif.Proofs.Unidata

/-!
# Upper and lower case are each other's counterparts
-/

namespace Pire.Unidata

/-- Letters that share their upper or lower case with another pair (`ı`, `ſ`, `ς`, ...). -/
def oddCase : List Nat := [0xB5, 0x130, 0x131, 0x17F, 0x345, 0x3C2, 0x3D0, 0x3D1, 0x3D5, 0x3D6, 0x3F0, 0x3F1, 0x3F4, 0x3F5, 0x1E9B]

def checkPair (i c : Nat) : Bool :=
  force (lowerOf i c) fun l => force (upperOf i c) fun u =>
    (Nat.beq l c && Nat.beq u c) || oddCase.contains c ||
      (Nat.beq (toUpper l) u && Nat.beq (toLower l) l && Nat.beq (toUpper u) u && Nat.beq (toLower u) l)

set_option maxRecDepth 100000 in
theorem checkPair_all : checkRange (checkPage checkPair) 11 0 = true := by decide +kernel

theorem case_pair {c : Nat} (hc : c < 0x10000) (ho : c ∉ oddCase) :
    toUpper (toLower c) = toUpper c ∧ toLower (toLower c) = toLower c ∧ toUpper (toUpper c) = toUpper c ∧ toLower (toUpper c) = toLower c := by
  have h := checkPage_spec checkPair_all hc
  simp only [checkPair, force_eq] at h
  change ((Nat.beq (toLower c) c && Nat.beq (toUpper c) c) || oddCase.contains c ||
    (Nat.beq (toUpper (toLower c)) (toUpper c) && Nat.beq (toLower (toLower c)) (toLower c) && Nat.beq (toUpper (toUpper c)) (toUpper c) &&
      Nat.beq (toLower (toUpper c)) (toLower c))) = true at h
  have e : oddCase.contains c = false := by simpa using ho
  rw [e, Bool.or_false] at h
  simp only [Bool.and_eq_true, Bool.or_eq_true, Nat.beq_eq] at h
  rcases h with ⟨h1, h2⟩ | h
  · simp only [h1, h2, and_self]
  · exact ⟨h.1.1.1, h.1.1.2, h.1.2, h.2⟩

/-- Cyrillic letters. -/
theorem cyrillic_spec {c : Nat} (h : 0x400 ≤ c) (h2 : c < 0x460) :
    toUpper c = (if c < 0x430 then c else if c < 0x450 then c - 32 else c - 80) ∧
    toLower c = (if c < 0x410 then c + 80 else if c < 0x430 then c + 32 else c) := by
  have h := check256 (p := fun i c => decide (0x460 ≤ c) ||
      (Nat.beq (upperOf i c) (if c < 0x430 then c else if c < 0x450 then c - 32 else c - 80) &&
       Nat.beq (lowerOf i c) (if c < 0x410 then c + 80 else if c < 0x430 then c + 32 else c))) (k := 4)
    (by decide +kernel) (by omega) (c := c) (by omega) (by omega)
  simp only [Bool.and_eq_true, Bool.or_eq_true, Nat.beq_eq, decide_eq_true_eq] at h
  exact h.resolve_left (by omega)

/-- The accented letters of Latin-1. -/
theorem latin1_spec {c : Nat} (h : 0xC0 ≤ c) (h2 : c < 0xFF) (hx : c ≠ 0xD7) (hd : c ≠ 0xF7) (hs : c ≠ 0xDF) :
    toUpper c = (if c < 0xE0 then c else c - 32) ∧ toLower c = (if c < 0xE0 then c + 32 else c) := by
  have h := check256 (p := fun i c => decide (c < 0xC0) || Nat.beq c 0xFF || Nat.beq c 0xD7 || Nat.beq c 0xF7 || Nat.beq c 0xDF ||
      (Nat.beq (upperOf i c) (if c < 0xE0 then c else c - 32) && Nat.beq (lowerOf i c) (if c < 0xE0 then c + 32 else c))) (k := 0)
    (by decide +kernel) (by omega) (c := c) (by omega) (by omega)
  simp only [Bool.and_eq_true, Bool.or_eq_true, Nat.beq_eq, decide_eq_true_eq] at h
  refine h.resolve_left ?_
  omega

end Pire.Unidata
