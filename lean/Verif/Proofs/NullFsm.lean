import Verif.Proofs.ZeroOut
import Verif.Proofs.ScannerSem

/-!
# The automaton of the empty scanner
-/

namespace Pire
open Spec
namespace Fsm
theorem false_tr (q c : Nat) : Fsm.makeFalse.removeEpsilons.tr q c = none := by
  have e1 : Fsm.makeFalse.size = 1 := rfl
  have hm : ∀ q c, Fsm.makeFalse.unsparse.tr q c = none := by
    intro q c
    simp [Fsm.unsparse, Fsm.makeFalse, Fsm.setFinal, Fsm.init, Partition.empty, unpackRow]
  have hs : Fsm.makeFalse.unsparse.size = 1 := rfl
  have hr : List.range 1 = [0] := rfl
  have he : ∀ f : Fsm, (∀ q c, f.tr q c = none) → ∀ q c, elems (f.destinations q c) = [] := by
    intro f h q c
    simp [Fsm.destinations, Fsm.dst, h, elems]
  unfold removeEpsilons
  generalize Fsm.makeFalse.unsparse = u at *
  simp only [hs, hr, List.foldl_cons, List.foldl_nil]
  have hi : u.buildInveps 0 = ∅ := by
    unfold buildInveps
    rw [hs, hr]
    simp [he u hm, invInsert]
  have hc : closeThru { fsm := u, inveps := u.buildInveps } 0 = { fsm := u, inveps := u.buildInveps } := by
    unfold closeThru
    simp only [hi]
    simp [elems]
  rw [hc]
  have hmf : mergeFrom u 0 = u := by
    unfold mergeFrom
    rw [he u hm]; rfl
  rw [hmf]
  simp [dropEps, sparse, clearHints, hm]

theorem minimize_letters (f : Fsm) : f.minimize.letters = f.letters := by
  unfold Fsm.minimize
  split
  · simp only
    generalize (f.minTask.run f.minCls f.minClasses).cls = cls
    generalize (f.minTask.run f.minCls f.minClasses).classes = n
    show (f.mergeClasses cls n).letters = _
    simp [mergeClasses]
    rfl
  · rfl

theorem null_letters {f : Fsm} (h : Fsm.makeFalse.canonize 0 = some f) : f.letters.size ≤ 1 := by
  have hw := removeEpsilons_spec WF.makeFalse
  have hl : f.letters = Fsm.makeFalse.removeEpsilons.letters := by
    unfold Fsm.canonize at h
    rw [if_neg (by decide)] at h
    simp only at h
    split at h
    · cases h
      rename_i hok
      unfold Fsm.determine at hok ⊢
      rw [if_neg (by decide)] at hok ⊢
      simp only at hok ⊢
      split
      · rename_i st cn hr
        have b := build_fields Fsm.makeFalse.removeEpsilons st cn
        rw [minimize_letters]
        exact b.2.2.1
      · rename_i hr; rw [hr] at hok; cases hok
    · cases h
  rw [hl]
  have ht := false_tr
  generalize Fsm.makeFalse.removeEpsilons = g at *
  have hx := hw.exact
  have hso := hw.wf.let_wf.sorted
  unfold Partition.size
  cases hset : g.letters.set with
  | nil => simp
  | cons e l =>
    cases l with
    | nil => simp
    | cons e' l =>
      rw [hset] at hx hso
      have := hx e (by simp) e' (by simp) fun q => by rw [ht, ht]
      have := (List.pairwise_cons.1 hso).1 e' (by simp)
      omega
end Fsm
end Pire
