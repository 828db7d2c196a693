import Verif.Model.FsmProgram
import Verif.Props.Algebra

/-!
# Operations on objects are the operations on values, unless `Import` reads from the table it writes to
-/

namespace Pire
namespace FsmMem

open Spec

theorem unpackClass_empty (e : PClass) : Fsm.unpackClass (fun _ => none) e = fun _ => none := rfl

theorem unpackRow_empty (l : Partition) : Fsm.unpackRow l (fun _ => none) = fun _ => none := by
  unfold Fsm.unpackRow
  induction l.set with
  | nil => rfl
  | cons e t ih => rw [List.foldl_cons, unpackClass_empty, ih]

@[simp] theorem put_same (s : Store) (x : Place) (f : Fsm) : put s x f x = f := Function.update_self ..

theorem put_other (s : Store) {x y : Place} (h : y ≠ x) (f : Fsm) : put s x f y = s y := Function.update_of_ne h ..

@[simp] theorem put_put (s : Store) (x : Place) (f g : Fsm) : put (put s x f) x g = put s x g := Function.update_idem ..

theorem put_self (s : Store) (x : Place) : put s x (s x) = s := Function.update_eq_self ..

/-- The table after `k` iterations of the loop from `i`. -/
def rowsAfter (f rhs : Fsm) (n i k : Nat) : Nat → Nat → Option (Finset Nat) := fun q =>
  if n + i ≤ q ∧ q < n + i + k then Fsm.unpackRow rhs.letters (insertRow (f.tr q) (rhs.tr (q - n)) n) else f.tr q

theorem importRows_eq {x y : Place} (h : y ≠ x) (n : Nat) : ∀ (k i : Nat) (s : Store), (s x).size = n + i + k →
    importRows x y n k i s = .done (put s x { s x with tr := rowsAfter (s x) (s y) n i k }) := by
  intro k
  induction k with
  | zero =>
    intro i s _
    have : rowsAfter (s x) (s y) n i 0 = (s x).tr := by
      funext q; unfold rowsAfter; rw [if_neg (by omega)]
    rw [this]
    exact congrArg _ (put_self s x).symm
  | succ k ih =>
    intro i s hs
    unfold importRows
    rw [if_neg (by omega)]
    simp only [put_same, put_put, put_other _ h]
    rw [ih (i + 1) _ (by rw [put_same]; simp only; omega)]
    simp only [put_same, put_put, put_other _ h]
    congr 3
    funext q
    unfold rowsAfter
    dsimp only
    by_cases hq : q = i + n
    · subst hq
      rw [if_neg (by omega), if_pos (by omega), Function.update_self, Function.update_self, Nat.add_sub_cancel]
    · by_cases hr : n + i ≤ q ∧ q < n + i + (k + 1)
      · rw [if_pos hr, if_pos (by omega), Function.update_of_ne hq, Function.update_of_ne hq]
      · rw [if_neg hr, if_neg (by omega), Function.update_of_ne hq, Function.update_of_ne hq]

theorem import_eq {x y : Place} (h : y ≠ x) (s : Store) : import_ x y s = .done (put s x ((s x).import_ (s y))) := by
  unfold import_
  simp only [put_same, put_put, put_other _ h]
  rw [importRows_eq h _ _ _ _ (by rw [put_same]; simp [Fsm.resize])]
  simp only [put_same, put_put, put_other _ h, Ran.bind]
  congr 2
  unfold Fsm.import_
  simp only [Fsm.resize]
  congr 1
  funext q
  unfold rowsAfter
  dsimp only
  by_cases h1 : q < (s x).size
  · rw [if_neg (by omega), if_pos h1]
    congr 1
    funext c
    rw [if_pos (by omega)]
  · rw [if_neg h1]
    have he : (fun c => if q < (s x).size ∧ q < (s x).size + (s y).size then (s x).tr q c else none) = fun _ => none := by
      funext c; rw [if_neg (by omega)]
    rw [he, unpackRow_empty]
    by_cases h2 : q < (s x).size + (s y).size
    · rw [if_pos (by omega), if_pos h2]
      rfl
    · rw [if_neg (by omega), if_neg h2]

theorem add_eq {x y : Place} (h : y ≠ x) (s : Store) : add x y s = .done (put s x ((s x).concat (s y))) := by
  unfold add
  rw [import_eq h]
  simp only [put_same, put_put, put_other _ h, Ran.bind]
  rfl

theorem or_eq {x y : Place} (h : y ≠ x) (s : Store) : or x y s = .done (put s x ((s x).union (s y))) := by
  unfold or
  rw [import_eq h]
  simp only [put_same, put_put, put_other _ h, Ran.bind]
  rfl

theorem and_eq (x y : Place) (s : Store) : and x y s = (Ran.ofOption ((s x).inter (s y))).bind fun g => .done (put s x g) := by
  unfold and Fsm.inter
  dsimp only
  cases hx : (s x).complement with
  | none => cases hy : (s y).complement <;> rfl
  | some g =>
    cases hy : (s y).complement with
    | none => simp only [Ran.ofOption, Ran.bind, Option.bind_eq_bind, Option.bind_none]
    | some r =>
      simp only [Ran.ofOption, Ran.bind, put_same, put_put, Option.bind_eq_bind, Option.bind_some]

/-- The loop of `*` over an object that is not the result. -/
theorem timesLoop_eq {x : Place} (h : x ≠ .temp) : ∀ (n k : Nat) (s : Store), s .temp = (s x).power k →
    timesLoop x n s = .done (put s .temp ((s x).power (k + n))) := by
  intro n
  induction n with
  | zero =>
    intro k s hs
    unfold timesLoop
    rw [Nat.add_zero, ← hs, put_self]
  | succ n ih =>
    intro k s hs
    unfold timesLoop
    rw [add_eq h]
    simp only [Ran.bind]
    rw [ih (k + 1) _ (by rw [put_same, put_other _ h, hs]; rfl), put_put, put_other _ h]
    rw [show k + 1 + n = k + (n + 1) by omega]

/-- The table is left with the first row beyond the copied ones. -/
theorem importRows_self (x : Place) (n : Nat) : ∀ (k i : Nat) (s : Store), n + i ≤ (s x).size → (s x).size < n + i + k →
    importRows x x n k i s = .outside := by
  intro k
  induction k with
  | zero => intro i s _ h; omega
  | succ k ih =>
    intro i s h1 h2
    unfold importRows
    split
    · rfl
    · simp only [put_same, put_put]
      exact ih _ _ (by simp only [put_same]; omega) (by simp only [put_same]; omega)

theorem import_self {x : Place} {s : Store} (h : 0 < (s x).size) : import_ x x s = .outside := by
  unfold import_
  simp only [put_same, put_put]
  rw [importRows_self]
  · rfl
  · rw [put_same]; simp [Fsm.resize]
  · rw [put_same]; simp [Fsm.resize]; omega

end FsmMem
end Pire
