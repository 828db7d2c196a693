import Verif.Proofs.Pattern

/-!
# The actions of the parser end unless the bounds of a count are reversed
-/

namespace Pire.Parse

open Pire.Spec Pire.Lex Pire.Enc

theorem lift_total (x : Option Fsm) : (lift x).Sat True fun _ => True := by cases x <;> exact trivial

theorem appendRange_total (e : Encoding) (a : Fsm) (cs : Finset Nat) : (appendRange e a cs).Sat True fun _ => True := by
  unfold appendRange
  dsimp only
  split
  · exact trivial
  · exact lift_total _

theorem convertToFsm_total (e : Encoding) (v : Val) : (convertToFsm e v).Sat True fun _ => True := by
  cases v with
  | range cs neg =>
    rw [convertToFsm]
    refine (appendRange_total e _ cs).bind fun a _ => ?_
    split
    · refine (lift_total _).bind fun x _ => ?_
      exact (lift_total _).bind fun x _ => trivial
    · exact trivial
  | _ => exact trivial

theorem appendIteration_total (e : Encoding) (a : Fsm) (v : Val) : (appendIteration e a v).Sat True fun _ => True := by
  unfold appendIteration
  split
  · exact appendRange_total e a _
  · exact trivial
  · exact (convertToFsm_total e _).bind fun x _ => trivial

theorem repeatAction_total (f : Fsm) {lo : Nat} {hi : Option Nat} (h : ∀ x, hi = some x → lo ≤ x) : (repeatAction f lo hi).Sat True fun _ => True := by
  unfold repeatAction
  repeat' split
  all_goals first | exact trivial | skip
  rename_i h1 h2
  have := h _ rfl
  omega


theorem _root_.Pire.Spec.OrderedCounts.left {a b : List Tok} (h : OrderedCounts (a ++ b)) : OrderedCounts a := fun lo hi hm => h lo hi (List.mem_append_left _ hm)
theorem _root_.Pire.Spec.OrderedCounts.right {a b : List Tok} (h : OrderedCounts (a ++ b)) : OrderedCounts b := fun lo hi hm => h lo hi (List.mem_append_right _ hm)
theorem _root_.Pire.Spec.OrderedCounts.tail {t : Tok} {b : List Tok} (h : OrderedCounts (t :: b)) : OrderedCounts b := fun lo hi hm => h lo hi (List.mem_cons_of_mem _ hm)

mutual
theorem evalAlt_total (e : Encoding) (a : Alt) (h : OrderedCounts a.spell) : (evalAlt e a).Sat True fun _ => True := by
  match a with
  | .one c => rw [evalAlt]; rw [Alt.spell] at h; exact evalConj_total e c h
  | .or a c =>
    rw [evalAlt]
    rw [Alt.spell] at h
    exact (evalAlt_total e a h.left).bind fun _ _ => (evalConj_total e c h.right.tail).bind fun _ _ => trivial
theorem evalConj_total (e : Encoding) (c : Conj) (h : OrderedCounts c.spell) : (evalConj e c).Sat True fun _ => True := by
  match c with
  | .one n => rw [evalConj]; rw [Conj.spell] at h; exact evalNeg_total e n h
  | .and c n =>
    rw [evalConj]
    rw [Conj.spell] at h
    exact (evalConj_total e c h.left).bind fun _ _ => (evalNeg_total e n h.right.tail).bind fun _ _ => lift_total _
theorem evalNeg_total (e : Encoding) (n : Neg) (h : OrderedCounts n.spell) : (evalNeg e n).Sat True fun _ => True := by
  match n with
  | .one c => rw [evalNeg]; rw [Neg.spell] at h; exact evalCat_total e c h
  | .not c =>
    rw [evalNeg]
    rw [Neg.spell] at h
    exact (evalCat_total e c h.tail).bind fun _ _ => lift_total _
theorem evalCat_total (e : Encoding) (c : Cat) (h : OrderedCounts c.spell) : (evalCat e c).Sat True fun _ => True := by
  match c with
  | .nil => exact trivial
  | .snoc c i =>
    rw [evalCat]
    rw [Cat.spell] at h
    exact (evalCat_total e c h.left).bind fun _ _ => (evalIter_total e i h.right).bind fun _ _ => appendIteration_total e _ _
theorem evalIter_total (e : Encoding) (i : Iter) (h : OrderedCounts i.spell) : (evalIter e i).Sat True fun _ => True := by
  match i with
  | .one t => rw [evalIter]; rw [Iter.spell] at h; exact evalTerm_total e t h
  | .rep t lo hi =>
    rw [evalIter]
    rw [Iter.spell] at h
    refine (evalTerm_total e t h.left).bind fun _ _ => (convertToFsm_total e _).bind fun f _ => (repeatAction_total f ?_).bind fun _ _ => trivial
    intro x hx
    subst hx
    exact h.right lo x (by simp)
theorem evalTerm_total (e : Encoding) (t : Term) (h : OrderedCounts t.spell) : (evalTerm e t).Sat True fun _ => True := by
  match t with
  | .letters _ _ => exact trivial
  | .dot => exact trivial
  | .bol => exact trivial
  | .eol => exact trivial
  | .group a =>
    rw [evalTerm]
    rw [Term.spell] at h
    exact (evalAlt_total e a h.tail.left).bind fun _ _ => trivial
end

/-! ### Parentheses -/

mutual
theorem Alt.balanced (a : Alt) : a.spell.count .opn = a.spell.count .cls := by
  match a with
  | .one c => rw [Alt.spell]; exact Conj.balanced c
  | .or a c =>
    have h1 := Alt.balanced a
    have h2 := Conj.balanced c
    simp [Alt.spell, h1, h2, List.count_cons]
theorem Conj.balanced (c : Conj) : c.spell.count .opn = c.spell.count .cls := by
  match c with
  | .one n => rw [Conj.spell]; exact Neg.balanced n
  | .and c n =>
    have h1 := Conj.balanced c
    have h2 := Neg.balanced n
    simp [Conj.spell, h1, h2, List.count_cons]
theorem Neg.balanced (n : Neg) : n.spell.count .opn = n.spell.count .cls := by
  match n with
  | .one c => rw [Neg.spell]; exact Cat.balanced c
  | .not c =>
    have h1 := Cat.balanced c
    simp [Neg.spell, h1, List.count_cons]
theorem Cat.balanced (c : Cat) : c.spell.count .opn = c.spell.count .cls := by
  match c with
  | .nil => rfl
  | .snoc c i =>
    have h1 := Cat.balanced c
    have h2 := Iter.balanced i
    simp [Cat.spell, h1, h2]
theorem Iter.balanced (i : Iter) : i.spell.count .opn = i.spell.count .cls := by
  match i with
  | .one t => rw [Iter.spell]; exact Term.balanced t
  | .rep t lo hi =>
    have h1 := Term.balanced t
    simp [Iter.spell, h1, List.count_cons]
theorem Term.balanced (t : Term) : t.spell.count .opn = t.spell.count .cls := by
  match t with
  | .letters _ _ => simp [Term.spell]
  | .dot => rfl
  | .bol => rfl
  | .eol => rfl
  | .group a =>
    have h1 := Alt.balanced a
    simp [Term.spell, h1, List.count_cons]
end

end Pire.Parse
