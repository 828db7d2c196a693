import Verif.Proofs.Kept
import Verif.Proofs.Pattern

/-!
# The automata the parser makes are not marked as determined
-/

namespace Pire

namespace Fsm

theorem connectFinal_determined (f : Fsm) (p c : Nat) : (f.connectFinal p c).determined = f.determined :=
  connectAll_determined f _

theorem asMid_determined (s : ASt × Nat) (c : Nat) (h : s.1.fsm.determined = false) : (asMid s c).1.fsm.determined = false := by
  unfold asMid
  simp only
  split
  · rfl
  · exact h

theorem asMid_fold_determined (l : List Nat) (s : ASt × Nat) (h : s.1.fsm.determined = false) : (l.foldl asMid s).1.fsm.determined = false := by
  induction l generalizing s with
  | nil => exact h
  | cons c l ih => rw [List.foldl_cons]; exact ih _ (asMid_determined _ _ h)

theorem asStep_determined (fin : Nat) (st : ASt) (s : List Nat) (h : st.fsm.determined = false) : (asStep fin st s).fsm.determined = false := by
  unfold asStep
  split
  · exact h
  · rfl
  · rfl

theorem asFold_determined (fin : Nat) (l : List (List Nat)) (st : ASt) (h : st.fsm.determined = false) :
    (l.foldl (asStep fin) st).fsm.determined = false := by
  induction l generalizing st with
  | nil => exact h
  | cons s l ih => rw [List.foldl_cons]; exact ih _ (asStep_determined _ _ _ h)

theorem appendStrings_determined {f g : Fsm} {t : List (List Nat)} (h : f.appendStrings t = some g) (hf : f.determined = false) :
    g.determined = false := by
  unfold appendStrings at h
  split at h
  · cases h
  · cases h
    exact asFold_determined _ _ _ hf

theorem inter_determined {f r g : Fsm} (hg : f.inter r = some g) : g.determined = false := by
  unfold Fsm.inter at hg
  simp only [Option.bind_eq_bind, Option.bind_eq_some_iff] at hg
  obtain ⟨a, ha, b, hb, hg⟩ := hg
  exact Parse.complement_determined hg

end Fsm

namespace Parse

open Pire.Spec Pire.Lex Pire.Enc Fsm

theorem kept_undetermined (e : Encoding) : Kept e fun f => f.determined = false where
  init := rfl
  false := rfl
  char f c h := by simp [Fsm.appendChar, Fsm.resize, Fsm.connectFinal, Fsm.clearFinal, Fsm.setFinal, h]
  dot f h := by cases e <;> rfl
  strings f t g hg h := appendStrings_determined hg h
  concat f g h h' := rfl
  union f g h h' := rfl
  iterate f h := rfl
  complement f g hg h := complement_determined hg
  inter f g x hx h h' := inter_determined hx
  trim f h := by rw [removeDeadEnds_determined, h]

end Parse
end Pire
