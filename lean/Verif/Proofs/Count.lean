import Verif.Model.Count
import Verif.Spec.Count
import Verif.Proofs.Loaded

/-!
# Counting: what the actions do to the counters
-/

namespace Pire
namespace Count
open Spec

/-! ### One counter -/

/-- A counter and the best value so far. -/
def opStep (x : Nat × Nat) : Op → Nat × Nat
  | .inc => (x.1 + 1, max x.2 (x.1 + 1))
  | .reset => (0, x.2)

/-- The value of the counter and the best one after the operations. -/
def ops (l : List Op) : Nat × Nat := l.foldl opStep (0, 0)

theorem ops_snoc (l : List Op) (o : Op) : ops (l ++ [o]) = opStep (ops l) o := by unfold ops; rw [List.foldl_append]; rfl

theorem ops_le (l : List Op) : (ops l).1 ≤ (ops l).2 := by
  induction l using List.reverseRecOn with
  | nil => exact Nat.le_refl _
  | append_singleton l o ih =>
    rw [ops_snoc]
    cases o with
    | inc => exact Nat.le_max_right _ _
    | reset => exact Nat.zero_le _

theorem ops_len (l : List Op) : (ops l).2 ≤ l.length := by
  induction l using List.reverseRecOn with
  | nil => exact Nat.le_refl _
  | append_singleton l o ih =>
    rw [ops_snoc, List.length_append]
    have := ops_le l
    cases o with
    | inc => exact Nat.max_le.2 ⟨by simp; omega, by simp; omega⟩
    | reset => show (ops l).2 ≤ _; simp; omega

/-- The value is that of the longest stretch at the end; the best one that of the longest stretch. -/
theorem ops_spec (l : List Op) :
    ((∃ x, x <:+ l ∧ Op.reset ∉ x ∧ x.length = (ops l).1) ∧ ∀ x, x <:+ l → Op.reset ∉ x → x.length ≤ (ops l).1) ∧ MaxRun l (ops l).2 := by
  induction l using List.reverseRecOn with
  | nil => exact ⟨⟨⟨[], by simp, by simp, rfl⟩, fun x h _ => by rw [List.suffix_nil.1 h]; simp [ops]⟩,
      ⟨⟨[], by simp, by simp, rfl⟩, fun x h _ => by rw [List.infix_nil.1 h]; simp [ops]⟩⟩
  | append_singleton l o ih =>
    obtain ⟨⟨⟨x, hx, hx', hxl⟩, hmax⟩, ⟨⟨y, hy, hy', hyl⟩, hbest⟩⟩ := ih
    have hinf : ∀ z, z <:+: l ++ [o] → z <:+: l ∨ z <:+ l ++ [o] := by
      intro z hz
      obtain ⟨a, b, hab⟩ := hz
      rcases List.eq_nil_or_concat b with rfl | ⟨b', o', rfl⟩
      · exact .inr ⟨a, by rw [← hab, List.append_nil]⟩
      · left
        rw [List.concat_eq_append, ← List.append_assoc] at hab
        obtain ⟨h1, _⟩ := List.append_inj' hab rfl
        exact ⟨a, b', h1⟩
    have hsuf : ∀ z, z <:+ l ++ [o] → z = [] ∨ ∃ z', z = z' ++ [o] ∧ z' <:+ l := by
      intro z hz
      obtain ⟨a, ha⟩ := hz
      rcases List.eq_nil_or_concat z with rfl | ⟨z', o', rfl⟩
      · exact .inl rfl
      · right
        rw [List.concat_eq_append, ← List.append_assoc] at ha
        obtain ⟨h1, h2⟩ := List.append_inj' ha rfl
        cases h2
        exact ⟨z', List.concat_eq_append, ⟨a, h1⟩⟩
    rw [ops_snoc]
    have mono : ∀ z, z <:+: l → z <:+: l ++ [o] := fun z ⟨a, b, hab⟩ => ⟨a, b ++ [o], by rw [← hab]; simp⟩
    cases o with
    | reset =>
      have h1 : ∀ z, z <:+ l ++ [Op.reset] → Op.reset ∉ z → z.length ≤ 0 := by
        intro z hz hn
        rcases hsuf z hz with rfl | ⟨z', rfl, _⟩
        · simp
        · simp at hn
      refine ⟨⟨⟨[], by simp, by simp, rfl⟩, h1⟩, ⟨⟨y, mono y hy, hy', hyl⟩, ?_⟩⟩
      intro z hz hn
      rcases hinf z hz with h | h
      · exact hbest z h hn
      · exact le_trans (h1 z h hn) (Nat.zero_le _)
    | inc =>
      have h1 : ∀ z, z <:+ l ++ [Op.inc] → Op.reset ∉ z → z.length ≤ (ops l).1 + 1 := by
        intro z hz hn
        rcases hsuf z hz with rfl | ⟨z', rfl, hz'⟩
        · simp
        · rw [List.length_append]
          have := hmax z' hz' fun h => hn (by simp [h])
          simp; omega
      have hx2 : x ++ [Op.inc] <:+ l ++ [Op.inc] := by
        obtain ⟨a, ha⟩ := hx
        exact ⟨a, by rw [← ha]; simp⟩
      have hx3 : Op.reset ∉ x ++ [Op.inc] := by simp [hx']
      refine ⟨⟨⟨x ++ [Op.inc], hx2, hx3, by rw [List.length_append, hxl]; rfl⟩, h1⟩, ⟨?_, ?_⟩⟩
      · show ∃ z : List Op, _ ∧ _ ∧ z.length = max (ops l).2 ((ops l).1 + 1)
        rcases Nat.le_total (ops l).2 ((ops l).1 + 1) with h | h
        · rw [Nat.max_eq_right h]
          exact ⟨x ++ [Op.inc], hx2.isInfix, hx3, by rw [List.length_append, hxl]; rfl⟩
        · rw [Nat.max_eq_left h]
          exact ⟨y, mono y hy, hy', hyl⟩
      · intro z hz hn
        rcases hinf z hz with h | h
        · exact le_trans (hbest z h hn) (Nat.le_max_left _ _)
        · exact le_trans (h1 z h hn) (Nat.le_max_right _ _)

/-! ### The performers -/

theorem bit_ne (a i : Nat) : (a &&& 1 <<< i ≠ 0) ↔ a.testBit i = true := by
  rw [Nat.one_shiftLeft]
  constructor
  · intro h
    by_contra hb
    apply h
    apply Nat.eq_of_testBit_eq
    intro j
    rw [Nat.testBit_and, Nat.zero_testBit, Nat.testBit_two_pow]
    by_cases hj : i = j
    · subst hj; rw [Bool.eq_false_iff.2 hb]; rfl
    · simp [hj]
  · intro hb h
    have := congrArg (Nat.testBit · i) h
    simp [Nat.testBit_and, hb] at this

theorem incPerform_eq (n mask : Nat) (s : State) : (incPerform n mask s).st = s.st ∧ (incPerform n mask s).total = s.total ∧
    (incPerform n mask s).updated = s.updated ∧
    ∀ i, (incPerform n mask s).current i = if i < n ∧ mask.testBit i = true then (s.current i + 1) % 2 ^ 32 else s.current i := by
  induction n generalizing s with
  | zero => exact ⟨rfl, rfl, rfl, fun i => by simp [incPerform]⟩
  | succ n ih =>
    rw [incPerform]
    obtain ⟨h1, h2, h3, h4⟩ := ih (if mask &&& 1 <<< n ≠ 0 then { s with current := Function.update s.current n ((s.current n + 1) % 2 ^ 32) } else s)
    refine ⟨h1.trans (by split <;> rfl), h2.trans (by split <;> rfl), h3.trans (by split <;> rfl), ?_⟩
    intro i
    rw [h4 i]
    rw [if_congr (bit_ne mask n) rfl rfl]
    by_cases hi : i = n
    · subst hi
      cases h : mask.testBit i <;> simp
    · have h1 : (i < n + 1) ↔ i < n := by omega
      simp only [h1]
      cases h : mask.testBit n <;> simp [Function.update_of_ne hi]

theorem resetPerform_eq (n mask : Nat) (s : State) : (resetPerform n mask s).st = s.st ∧ (resetPerform n mask s).updated = s.updated ∧
    ∀ i, (resetPerform n mask s).current i = (if i < n ∧ mask.testBit (16 + i) = true then 0 else s.current i) ∧
      (resetPerform n mask s).total i = if i < n ∧ mask.testBit (16 + i) = true then max (s.total i) (s.current i) else s.total i := by
  induction n generalizing s with
  | zero => exact ⟨rfl, rfl, fun i => by simp [resetPerform]⟩
  | succ n ih =>
    rw [resetPerform]
    obtain ⟨h1, h3, h4⟩ := ih (if mask &&& 1 <<< (Loaded.MaxReCount + n) ≠ 0 ∧ s.current n ≠ 0 then
      { s with total := Function.update s.total n (max (s.total n) (s.current n)), current := Function.update s.current n 0 } else s)
    refine ⟨h1.trans (by split <;> rfl), h3.trans (by split <;> rfl), ?_⟩
    intro i
    rw [(h4 i).1, (h4 i).2]
    rw [if_congr (and_congr_left' (bit_ne mask (Loaded.MaxReCount + n))) rfl rfl]
    have hM : Loaded.MaxReCount = 16 := rfl
    rw [hM]
    by_cases hi : i = n
    · subst hi
      by_cases hc : s.current i = 0
      · cases h : mask.testBit (16 + i) <;> simp [hc]
      · cases h : mask.testBit (16 + i) <;> simp [hc]
    · have h1 : (i < n + 1) ↔ i < n := by omega
      simp only [h1]
      cases h : mask.testBit (16 + n) <;> by_cases hc : s.current n = 0 <;> simp [Function.update_of_ne hi, hc]

/-! ### Sequences of actions -/

/-- What an action does to counter `i` of a `CountingScanner`. -/
def opsBasic (i a : Nat) : List Op := (if a.testBit i then [.inc] else []) ++ if a.testBit (16 + i) then [.reset] else []

/-- What an action does to counter `i` of an `AdvancedCountingScanner`: resets come first. -/
def opsAdvanced (i a : Nat) : List Op := (if a.testBit (16 + i) then [.reset] else []) ++ if a.testBit i then [.inc] else []

/-- The counters are as after the operations; a counter that is not zero is marked. -/
def Inv (s : State) (O : Nat → List Op) : Prop :=
  ∀ i < 16, s.current i = (ops (O i)).1 ∧ max (s.current i) (s.total i) = (ops (O i)).2 ∧ (s.current i ≠ 0 → s.updated.testBit (16 + i) = true)

theorem inv_init (st : Nat) : Inv (initState st) fun _ => [] := fun _ _ => ⟨rfl, rfl, fun h => absurd rfl h⟩

theorem and_mask_eq {a : Nat} (h : a &&& incrementMask = 0) {i : Nat} (hi : i < 16) : a.testBit i = false := by
  have h1 := congrArg (Nat.testBit · i) h
  simp only [Nat.testBit_and, Nat.zero_testBit] at h1
  have h2 : incrementMask.testBit i = true := by
    have : incrementMask = 2 ^ 16 - 1 := rfl
    rw [this, Nat.testBit_two_pow_sub_one]
    simpa using hi
  rw [h2, Bool.and_true] at h1
  exact h1

theorem and_resetMask_eq {a : Nat} (h : a &&& resetMask = 0) {i : Nat} (hi : i < 16) : a.testBit (16 + i) = false := by
  have h1 := congrArg (Nat.testBit · (16 + i)) h
  simp only [Nat.testBit_and, Nat.zero_testBit] at h1
  have h2 : resetMask.testBit (16 + i) = true := by
    have : resetMask = (2 ^ 16 - 1) <<< 16 := rfl
    rw [this, Nat.testBit_shiftLeft, Nat.add_sub_cancel_left, Nat.testBit_two_pow_sub_one]
    simpa using hi
  rw [h2, Bool.and_true] at h1
  exact h1

theorem Inv.increment {s : State} {O : Nat → List Op} (h : Inv s O) (a : Nat) (hlen : ∀ i < 16, (O i).length + 1 < 2 ^ 32) (ha : a < 2 ^ 32) :
    Inv (if a &&& incrementMask ≠ 0 then performIncrement s a else s) (fun i => O i ++ if a.testBit i then [.inc] else []) := by
  intro i hi
  obtain ⟨h1, h2, h3⟩ := h i hi
  split
  · rename_i hm
    have hne : a ≠ 0 := fun h => hm (by rw [h]; simp)
    unfold performIncrement
    rw [if_pos hne]
    obtain ⟨e1, e2, e3, e4⟩ := incPerform_eq Loaded.MaxReCount a s
    simp only
    have hM : Loaded.MaxReCount = 16 := rfl
    rw [e4 i, e2, e3]
    rw [hM]
    have hl : (ops (O i)).1 + 1 < 2 ^ 32 := by
      have := ops_le (O i); have := ops_len (O i); have := hlen i hi; omega
    have hbit : (a <<< 16 % 2 ^ 64).testBit (16 + i) = a.testBit i := by
      rw [Nat.testBit_mod_two_pow, Nat.testBit_shiftLeft, Nat.add_sub_cancel_left]
      simp; omega
    cases hb : a.testBit i with
    | false =>
      simp only [Bool.false_eq_true, and_false, if_false, List.append_nil]
      exact ⟨h1, h2, fun h => by rw [Nat.testBit_or, h3 h, Bool.true_or]⟩
    | true =>
      simp only [hi, and_self, if_true]
      rw [ops_snoc, h1, Nat.mod_eq_of_lt hl]
      refine ⟨rfl, ?_, fun _ => by rw [Nat.testBit_or, hbit, hb, Bool.or_true]⟩
      show max ((ops (O i)).1 + 1) (s.total i) = max (ops (O i)).2 ((ops (O i)).1 + 1)
      have := ops_le (O i)
      omega
  · rename_i hm
    have hb := and_mask_eq (not_not.1 hm) hi
    simp only [hb, Bool.false_eq_true, if_false, List.append_nil]
    exact ⟨h1, h2, h3⟩

theorem Inv.reset {s : State} {O : Nat → List Op} (h : Inv s O) (a : Nat) :
    Inv (if a &&& resetMask ≠ 0 then performReset s a else s) (fun i => O i ++ if a.testBit (16 + i) then [.reset] else []) := by
  intro i hi
  obtain ⟨h1, h2, h3⟩ := h i hi
  have hbit : ((a &&& s.updated) % 2 ^ 32).testBit (16 + i) = (a.testBit (16 + i) && s.updated.testBit (16 + i)) := by
    rw [Nat.testBit_mod_two_pow, Nat.testBit_and]
    have : 16 + i < 32 := by omega
    simp [this]
  have hskip : (a.testBit (16 + i) && s.updated.testBit (16 + i)) = false →
      s.current i = (ops (O i ++ if a.testBit (16 + i) then [.reset] else [])).1 ∧
      max (s.current i) (s.total i) = (ops (O i ++ if a.testBit (16 + i) then [.reset] else [])).2 := by
    intro hf
    cases hb : a.testBit (16 + i) with
    | false => simp only [Bool.false_eq_true, if_false, List.append_nil]; exact ⟨h1, h2⟩
    | true =>
      rw [hb, Bool.true_and] at hf
      have hz : s.current i = 0 := by
        by_contra hne
        rw [h3 hne] at hf; cases hf
      rw [if_pos rfl, ops_snoc]
      exact ⟨hz, h2⟩
  split
  · unfold performReset
    simp only
    split
    · rename_i hm
      obtain ⟨e1, e3, e4⟩ := resetPerform_eq Loaded.MaxReCount ((a &&& s.updated) % 2 ^ 32) s
      rw [(e4 i).1, (e4 i).2, hbit, e3]
      have hM : Loaded.MaxReCount = 16 := rfl
      rw [hM]
      cases hb : (a.testBit (16 + i) && s.updated.testBit (16 + i)) with
      | false =>
        simp only [Bool.false_eq_true, and_false, if_false]
        refine ⟨(hskip hb).1, (hskip hb).2, fun hne => ?_⟩
        have hu := h3 hne
        rw [Nat.testBit_and, hu, Nat.testBit_xor, hbit, hb, Nat.testBit_two_pow_sub_one]
        have : 16 + i < 32 := by omega
        simp [this]
      | true =>
        simp only [hi, and_self, if_true]
        have hb' := (Bool.and_eq_true _ _ ▸ hb : _ ∧ _).1
        rw [if_pos hb', ops_snoc]
        refine ⟨rfl, ?_, fun h => absurd rfl h⟩
        show max 0 (max (s.total i) (s.current i)) = (ops (O i)).2
        omega
    · rename_i hm
      have hz : (a &&& s.updated) % 2 ^ 32 = 0 := not_not.1 hm
      have hf : (a.testBit (16 + i) && s.updated.testBit (16 + i)) = false := by rw [← hbit, hz, Nat.zero_testBit]
      exact ⟨(hskip hf).1, (hskip hf).2, h3⟩
  · rename_i hm
    have hb := and_resetMask_eq (not_not.1 hm) hi
    have hf : (a.testBit (16 + i) && s.updated.testBit (16 + i)) = false := by rw [hb]; rfl
    exact ⟨(hskip hf).1, (hskip hf).2, h3⟩

theorem Inv.congr {s : State} {O O' : Nat → List Op} (h : Inv s O) (he : ∀ i < 16, O i = O' i) : Inv s O' := fun i hi => by
  rw [← he i hi]; exact h i hi

theorem opsBasic_len (i a : Nat) : (opsBasic i a).length ≤ 2 := by unfold opsBasic; split <;> split <;> simp
theorem opsAdvanced_len (i a : Nat) : (opsAdvanced i a).length ≤ 2 := by unfold opsAdvanced; split <;> split <;> simp

theorem flatMap_len {f : Nat → List Op} (hf : ∀ a, (f a).length ≤ 2) (l : List Nat) : (l.flatMap f).length ≤ 2 * l.length := by
  induction l with
  | nil => simp
  | cons a l ih =>
    rw [List.flatMap_cons, List.length_append, List.length_cons]
    have := hf a
    omega

theorem takeBasic_inv (as : List Nat) (ha : ∀ a ∈ as, a < 2 ^ 32) (hl : 2 * as.length < 2 ^ 32) (st : Nat) :
    Inv (as.foldl takeBasic (initState st)) fun i => as.flatMap (opsBasic i) := by
  induction as using List.reverseRecOn with
  | nil => exact inv_init st
  | append_singleton as a ih =>
    rw [List.length_append, List.length_singleton] at hl
    have h := ih (fun a h => ha a (by simp [h])) (by omega)
    rw [List.foldl_append]
    have h1 := h.increment a (fun i hi => by
      have := flatMap_len (opsBasic_len i) as
      omega) (ha a (by simp))
    exact (h1.reset a).congr fun i hi => by simp [opsBasic]

theorem takeAdvanced_inv (as : List Nat) (ha : ∀ a ∈ as, a < 2 ^ 32) (hl : 2 * as.length < 2 ^ 32) (st : Nat) :
    Inv (as.foldl takeAdvanced (initState st)) fun i => as.flatMap (opsAdvanced i) := by
  induction as using List.reverseRecOn with
  | nil => exact inv_init st
  | append_singleton as a ih =>
    rw [List.length_append, List.length_singleton] at hl
    have h := ih (fun a h => ha a (by simp [h])) (by omega)
    rw [List.foldl_append]
    have h1 := (h.reset a).increment a (fun i hi => by
      have := flatMap_len (opsAdvanced_len i) as
      have e : (if a.testBit (16 + i) = true then [Op.reset] else []).length ≤ 1 := by split <;> simp
      rw [List.length_append]
      omega) (ha a (by simp))
    exact h1.congr fun i hi => by simp [opsAdvanced]

theorem Inv.result {s : State} {O : Nat → List Op} (h : Inv s O) {i : Nat} (hi : i < 16) : MaxRun (O i) (s.result i) := by
  unfold State.result
  rw [(h i hi).2.1]
  exact (ops_spec _).2

end Count
end Pire
