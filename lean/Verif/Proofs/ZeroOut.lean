import Verif.Proofs.Tags

/-!
# Operations do not invent outputs
-/

namespace Pire
open Spec
namespace Fsm

/-- All stored outputs are zero. -/
def ZeroOuts (o : Nat → Option (Nat → Option Nat)) : Prop := ∀ q p v, (o q).bind (· p) = some v → v = 0

/-- No outputs. -/
def ZeroOut (f : Fsm) : Prop := ZeroOuts f.outputs

theorem ZeroOut.output {f : Fsm} (h : f.ZeroOut) (q p : Nat) : f.output q p = 0 := by
  unfold Fsm.output
  cases e : (f.outputs q).bind (· p) with
  | none => rfl
  | some v => exact h q p v e

theorem ZeroOut.of_eq {f g : Fsm} (h : f.ZeroOut) (he : g.outputs = f.outputs) : g.ZeroOut := by
  unfold ZeroOut; rw [he]; exact h

theorem ZeroOuts.or {o : Nat → Option (Nat → Option Nat)} (h : ZeroOuts o) (q p : Nat) {v : Nat} (hv : v = 0) : ZeroOuts (orOutput o q p v) := by
  intro x y u hu
  unfold orOutput at hu
  by_cases hx : x = q
  · subst hx
    rw [Function.update_self] at hu
    simp only [Option.bind_some] at hu
    by_cases hy : y = p
    · subst hy
      rw [Function.update_self] at hu
      cases hu
      cases e : (o x).bind (· y) with
      | none => rw [hv]; rfl
      | some w => rw [Option.getD_some, h x y w e, hv]; rfl
    · rw [Function.update_of_ne hy] at hu
      cases e : o x with
      | none => rw [e] at hu; cases hu
      | some m => rw [e] at hu; exact h x y u (by rw [e]; exact hu)
  · rw [Function.update_of_ne hx] at hu
    exact h x y u hu

theorem ZeroOuts.foldl {β : Type} {o : Nat → Option (Nat → Option Nat)} (h : ZeroOuts o) (q : Nat) (p v : β → Nat) (l : List β) (hv : ∀ x ∈ l, v x = 0) :
    ZeroOuts (l.foldl (fun o e => orOutput o q (p e) (v e)) o) := by
  induction l generalizing o with
  | nil => exact h
  | cons e l ih => exact ih (h.or q (p e) (hv e (by simp))) fun x hx => hv x (by simp [hx])

theorem merge_step {o : Nat → Option (Nat → Option Nat)} (h1 : ZeroOuts o) (q p : Nat) {fr : Option Nat} (hfr : fr.getD 0 = 0) :
    ZeroOuts (match o p with
    | none => o
    | some m => fun x => if x = q then
        some fun y => match m y with
          | none => (o q).bind (· y)
          | some u => some ((((o q).bind (· y)).getD 0) ||| (fr.getD 0 ||| u))
        else o x) := by
  cases hm : o p with
  | none => exact h1
  | some m =>
    intro x y u hu
    simp only at hu
    split at hu
    · simp only [Option.bind_some] at hu
      cases hw : m y with
      | none => rw [hw] at hu; exact h1 q y u hu
      | some w =>
        rw [hw] at hu
        cases hu
        rw [hfr, h1 p y w (by rw [hm]; exact hw)]
        cases e : (o q).bind (· y) with
        | none => rfl
        | some z => rw [h1 q y z e]; rfl
    · exact h1 x y u hu

theorem ZeroOut.mergeEps {f : Fsm} (h : f.ZeroOut) (q p : Nat) : (f.mergeEps q p).ZeroOut := by
  have hfr : ((f.outputs q).bind (· p)).getD 0 = 0 := h.output q p
  unfold ZeroOut Fsm.mergeEps
  cases e : (f.outputs q).bind (· p) with
  | none => rw [e] at hfr; exact merge_step h q p hfr
  | some v =>
    rw [e] at hfr
    exact merge_step (ZeroOuts.foldl h q (fun e : Nat × Nat => e.2) (fun _ => v) _ fun _ _ => h q p v e) q p hfr

theorem foldl_zeroOut {β : Type} {F : Fsm → β → Fsm} (h : ∀ f x, f.ZeroOut → (F f x).ZeroOut) (l : List β) {f : Fsm}
    (hf : f.ZeroOut) : (l.foldl F f).ZeroOut := by
  induction l generalizing f with
  | nil => exact hf
  | cons x l ih => exact ih (h f x hf)

theorem ZeroOut.shortCut {st : REState} (h : st.fsm.ZeroOut) (q thru : Nat) : (shortCut st q thru).fsm.ZeroOut := by
  unfold ZeroOut Fsm.shortCut
  simp only
  split
  · exact h
  · refine ZeroOuts.foldl h q (fun x => x) (fun x => st.fsm.output q thru ||| st.fsm.output thru x) _ fun x _ => ?_
    rw [h.output, h.output]; rfl

theorem ZeroOut.removeEpsilons {f : Fsm} (h : f.ZeroOut) : f.removeEpsilons.ZeroOut := by
  unfold Fsm.removeEpsilons
  simp only
  have h1 : ∀ (l : List Nat) (st : REState), st.fsm.ZeroOut → (l.foldl closeThru st).fsm.ZeroOut := by
    intro l
    induction l with
    | nil => intro st hst; exact hst
    | cons x l ih =>
      intro st hst
      refine ih _ ?_
      unfold closeThru
      generalize elems (st.inveps x) = l'
      induction l' generalizing st with
      | nil => exact hst
      | cons y l' ih' =>
        refine ih' _ ?_
        beta_reduce
        split
        · exact hst.shortCut _ _
        · exact hst
  refine ZeroOut.of_eq (foldl_zeroOut (F := mergeFrom) ?_ _ (h1 _ _ (h.of_eq rfl))) rfl
  intro g q hg
  unfold mergeFrom
  refine foldl_zeroOut ?_ _ hg
  intro g' p hg'
  split
  · exact hg'.mergeEps q p
  · exact hg'

theorem ZeroOut.orOutputs {f : Fsm} (h : f.ZeroOut) (s s' : Finset Nat) {v : Nat} (hv : f.orOutputs s s' = some v) : v = 0 := by
  unfold Fsm.orOutputs at hv
  have inner : ∀ (l : List Nat) (i : Nat) (acc : Option Nat), (∀ x, acc = some x → x = 0) → ∀ x, l.foldl (fun acc j =>
      match (f.outputs i).bind (· j) with | none => acc | some v => some (acc.getD 0 ||| v)) acc = some x → x = 0 := by
    intro l i
    induction l with
    | nil => intro acc ha x hx; exact ha x hx
    | cons j l ih =>
      intro acc ha x hx
      rw [List.foldl_cons] at hx
      refine ih _ ?_ x hx
      intro y hy
      cases hj : (f.outputs i).bind (· j) with
      | none => rw [hj] at hy; exact ha y hy
      | some u =>
        rw [hj] at hy
        cases hy
        rw [h i j u hj]
        cases acc with
        | none => rfl
        | some z => rw [Option.getD_some, ha z rfl]; rfl
  have outer : ∀ (l : List Nat) (acc : Option Nat), (∀ x, acc = some x → x = 0) → ∀ x, l.foldl (fun acc i => (elems s').foldl (fun acc j =>
      match (f.outputs i).bind (· j) with | none => acc | some v => some (acc.getD 0 ||| v)) acc) acc = some x → x = 0 := by
    intro l
    induction l with
    | nil => intro acc ha x hx; exact ha x hx
    | cons i l ih =>
      intro acc ha x hx
      rw [List.foldl_cons] at hx
      exact ih _ (inner _ i acc ha) x hx
  exact outer _ none (by simp) v hv

theorem ZeroOut.buildDetermined {f : Fsm} (h : f.ZeroOut) (states : List (Finset Nat)) (conns : List (Nat × Nat × Nat)) :
    (f.buildDetermined states conns).ZeroOut := by
  intro q p v hv
  unfold Fsm.buildDetermined at hv
  simp only at hv
  split at hv
  · simp only [Option.bind_some] at hv
    split at hv
    · exact h.orOutputs _ _ hv
    · cases hv
  · cases hv

theorem ZeroOut.determine {f : Fsm} (h : f.ZeroOut) (m : Nat) : (f.determine m).1.ZeroOut := by
  unfold Fsm.determine
  split
  · exact h
  · simp only
    split
    · exact (h.removeEpsilons.buildDetermined _ _).of_eq rfl
    · exact h.removeEpsilons

theorem ZeroOut.minimize {f : Fsm} (h : f.ZeroOut) : f.minimize.ZeroOut := by
  unfold Fsm.minimize
  split
  · simp only
    generalize (f.minTask.run f.minCls f.minClasses).cls = cls
    generalize (f.minTask.run f.minCls f.minClasses).classes = n
    intro q p v hv
    have hv' : ((f.mergeClasses cls n).outputs q).bind (· p) = some v := hv
    unfold mergeClasses at hv'
    simp only at hv'
    split at hv'
    · simp only [Option.bind_some] at hv'
      have hm := List.mem_of_mem_head? hv'
      obtain ⟨a, -, ha⟩ := List.mem_flatMap.1 hm
      obtain ⟨b, -, hb⟩ := List.mem_filterMap.1 ha
      split at hb
      · exact h a b v hb
      · cases hb
    · cases hv'
  · exact h

theorem ZeroOut.canonize {f g : Fsm} (h : f.ZeroOut) {m : Nat} (hg : f.canonize m = some g) : g.ZeroOut := by
  unfold Fsm.canonize at hg
  split at hg
  · cases hg; exact h.minimize
  · simp only at hg
    split at hg
    · cases hg; exact (h.determine m).minimize
    · cases hg

end Fsm
end Pire
