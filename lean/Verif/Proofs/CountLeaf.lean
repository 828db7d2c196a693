import Verif.Proofs.CountNoLimit

/-!
# Filling in a counting scanner from a table
-/

namespace Pire
namespace Loaded

theorem writeLE_self (mem : Mem) (a : Nat) (h : mem a = 0) : writeLE mem a 1 0 = mem := by
  funext x
  unfold writeLE
  split
  · rename_i hx
    have : x = a := by omega
    subst this
    rw [h]; simp; rfl
  · rfl

theorem setTag_zero (s : Loaded) (q : Nat) (h : s.mem (s.tags + q) = 0) : s.setTag q 0 = s := by
  unfold setTag
  rw [writeLE_self _ _ h]

theorem setTags_zero (s : Loaded) (l : List Nat) (h : ∀ q ∈ l, s.mem (s.tags + q) = 0) : s.setTags (l.map fun i => (i, 0)) = s := by
  induction l with
  | nil => rfl
  | cons q l ih =>
    show (s.setTag q 0).setTags (l.map fun i => (i, 0)) = s
    rw [setTag_zero s q (h q (by simp)), ih fun q hq => h q (by simp [hq])]

theorem setLetters_mem (l : List (Nat × Nat)) (s : Loaded) (h : ∀ x ∈ l, x.1 < 264) {a : Nat} (ha : s.letters + 264 ≤ a) :
    (l.foldl (fun s x => s.setLetter x.1 x.2) s).mem a = s.mem a := by
  induction l generalizing s with
  | nil => rfl
  | cons x l ih =>
    rw [List.foldl_cons, ih (s.setLetter x.1 x.2) (fun y hy => h y (by simp [hy])) ha]
    unfold setLetter writeLE
    have := h x (by simp)
    simp only
    rw [if_neg (by omega)]

theorem init_zero {base n : Nat} {P : Partition} (start r : Nat) (ha : Multi.AllLetters P) (hw : P.WF) {a : Nat} (h : base + 264 ≤ a) :
    (init base n P start r).mem a = 0 := by
  rw [init_eq, setLetters_mem]
  · rfl
  · intro x hx
    obtain ⟨e, he, h'⟩ := List.mem_flatMap.1 hx
    obtain ⟨c, hc, rfl⟩ := List.mem_map.1 h'
    exact ((ha c).1 (by rw [hw.inv_of_mem he hc]; rfl)).1
  · exact h

end Loaded

namespace Count
open Spec Loaded

/-- The calls of `SetJump`. -/
def tableJumps (remap : Nat → Nat) (n : Nat) (letters : Partition) (next out : Nat → Nat → Nat) : List Jump :=
  (List.range n).flatMap fun q => letters.set.map fun e => ⟨q, e.rep, next q e.rep, remap (out q e.rep) % 2 ^ 32⟩

theorem fillTable_repr {remap : Nat → Nat} {base n initial : Nat} {letters : Partition} {next out : Nat → Nat → Nat}
    (hw : letters.WF) (ha : Multi.AllLetters letters) (hP : letters.size ≤ 256) (h0 : initial < n)
    (hb : base % 8 = 0) (hs : base + bufSize n letters.size ≤ 2 ^ 64) (hlim : n * (letters.size * 8) ≤ 2 ^ 31)
    (hstep : ∀ q < n, ∀ c, IsLetter c → next q c < n)
    (hcls : ∀ q < n, ∀ e ∈ letters.set, ∀ c ∈ e.members, next q c = next q e.rep ∧ out q c = out q e.rep) :
    Repr (fillTable remap base n initial letters next out) ⟨n, initial, next, fun q c => remap (out q c) % 2 ^ 32, fun _ => 0⟩ ∧
    (fillTable remap base n initial letters next out).regexpsCount = 1 ∧ (fillTable remap base n initial letters next out).empty = false ∧
    Same (markup n letters.size 1 (base + MaxChar + 8 * (initial * letters.size)) base fun _ => 0) (fillTable remap base n initial letters next out) := by
  have e : fillTable remap base n initial letters next out =
      ((init base n letters initial 1).setTags ((List.range n).map fun i => (i, 0))).setJumps (tableJumps remap n letters next out) := by
    rw [setTags_zero]
    · unfold fillTable tableJumps setJumps
      rw [← Simple.foldl_flatMap']
      simp only [List.foldl_map]
    · intro q hq
      apply init_zero _ _ ha hw
      have := (init_same base n letters initial 1).tags
      rw [this]
      show base + 264 ≤ base + 264 + _ + q
      omega
  rw [e]
  refine build_repr (T := ⟨n, initial, next, fun q c => remap (out q c) % 2 ^ 32, fun _ => 0⟩) hw ha hP rfl rfl h0 hb hs hlim hstep ?_ ?_ ?_
  · intro w hw'
    obtain ⟨q, hq, hw'⟩ := List.mem_flatMap.1 hw'
    obtain ⟨e, he, rfl⟩ := List.mem_map.1 hw'
    exact ⟨List.mem_range.1 hq, (ha _).1 (by rw [hw.inv_of_mem he (hw.rep_mem e he)]; rfl), rfl, Nat.mod_mod _ _⟩
  · intro q hq e he
    exact ⟨_, List.mem_flatMap.2 ⟨q, List.mem_range.2 hq, List.mem_map.2 ⟨e, he, rfl⟩⟩, rfl, rfl⟩
  · intro q hq e he c hc
    obtain ⟨h1, h2⟩ := hcls q hq e he c hc
    exact ⟨h1, by show remap (out q c) % 2 ^ 32 = remap (out q e.rep) % 2 ^ 32; rw [h2]⟩

end Count
end Pire
