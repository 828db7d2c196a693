import Verif.Proofs.MultiCompile

/-!
# Operations do not invent state tags
-/

namespace Pire
open Spec
namespace Fsm

/-- All tags satisfy `M`. -/
def TagsIn (M : Nat → Prop) (f : Fsm) : Prop := ∀ q t, f.tags q = some t → M t

theorem tagsClean_iff {f : Fsm} : f.TagsClean ↔ f.TagsIn (· % 4 = 0) := Iff.rfl

theorem or_mod4 (a b : Nat) (ha : a % 4 = 0) (hb : b % 4 = 0) : (a ||| b) % 4 = 0 := by
  have h := Nat.or_mod_two_pow (a := a) (b := b) (n := 2)
  have e : (2 : Nat) ^ 2 = 4 := rfl
  rw [e, ha, hb] at h
  exact h

variable {M : Nat → Prop}

theorem TagsIn.of_eq {f g : Fsm} (h : f.TagsIn M) (he : g.tags = f.tags) : g.TagsIn M := by
  unfold TagsIn; rw [he]; exact h

/-! ### Operations that keep the tags -/

theorem foldl_tags {β : Type} {F : Fsm → β → Fsm} (h : ∀ f x, (F f x).tags = f.tags) (l : List β) (f : Fsm) :
    (l.foldl F f).tags = f.tags := by
  induction l generalizing f with
  | nil => rfl
  | cons x l ih => rw [List.foldl_cons, ih, h]

theorem resize_tags (f : Fsm) (n : Nat) : (f.resize n).tags = f.tags := rfl
theorem clearFinal_tags (f : Fsm) : f.clearFinal.tags = f.tags := rfl
theorem setFinal_tags (f : Fsm) (q : Nat) (b : Bool) : (f.setFinal q b).tags = f.tags := rfl

theorem connectFinal_tags (f : Fsm) (p c : Nat) : (f.connectFinal p c).tags = f.tags := connectAll_tags ..

theorem appendChar_tags (f : Fsm) (c : Nat) : (f.appendChar c).tags = f.tags :=
  (connectFinal_tags ..)

theorem appendStr_tags (f : Fsm) (s : List Nat) : (f.appendStr s).tags = f.tags := foldl_tags appendChar_tags _ _

theorem appendLetters_tags (f : Fsm) (l : List Nat) : (f.appendLetters l).tags = f.tags := by
  unfold appendLetters
  exact foldl_tags (F := fun g c => g.connectFinal (g.size - 1) c) (fun g c => connectFinal_tags g _ c) l (f.resize (f.size + 1))

theorem appendDot_tags (f : Fsm) : f.appendDot.tags = f.tags := appendLetters_tags ..

theorem asMid_tags (s : ASt × Nat) (c : Nat) : (asMid s c).1.fsm.tags = s.1.fsm.tags := by
  unfold asMid
  simp only
  split <;> rfl

theorem asMid_fold_tags (l : List Nat) (s : ASt × Nat) : (l.foldl asMid s).1.fsm.tags = s.1.fsm.tags := by
  induction l generalizing s with
  | nil => rfl
  | cons c l ih => rw [List.foldl_cons, ih, asMid_tags]

theorem asStep_tags (fin : Nat) (st : ASt) (s : List Nat) : (asStep fin st s).fsm.tags = st.fsm.tags := by
  unfold asStep
  split
  · rfl
  · exact connectFinal_tags ..
  · rename_i c cs _
    simp only
    have := asMid_fold_tags cs.dropLast
    split
    · exact (this _).trans (connectFinal_tags ..)
    · exact this _

theorem asFold_tags (fin : Nat) (l : List (List Nat)) (st : ASt) : (l.foldl (asStep fin) st).fsm.tags = st.fsm.tags := by
  induction l generalizing st with
  | nil => rfl
  | cons s l ih => rw [List.foldl_cons, ih, asStep_tags]

theorem appendStrings_tags {f g : Fsm} {t : List (List Nat)} (h : f.appendStrings t = some g) : g.tags = f.tags := by
  unfold appendStrings at h
  split at h
  · cases h
  · cases h
    exact asFold_tags ..

theorem iterate_tags (f : Fsm) : f.iterate.tags = f.tags := by
  simp only [iterate, resize_tags, connect_tags, clearFinal_tags, setFinal_tags, connectFinal_tags, connectAll_tags]

theorem prependAnything_tags (f : Fsm) : f.prependAnything.tags = f.tags := by
  simp only [prependAnything, resize_tags, connect_tags, clearFinal_tags, setFinal_tags, connectFinal_tags, connectAll_tags]

theorem appendAnything_tags (f : Fsm) : f.appendAnything.tags = f.tags := by
  simp only [appendAnything, resize_tags, connect_tags, clearFinal_tags, setFinal_tags, connectFinal_tags, connectAll_tags]

theorem surround_tags (f : Fsm) : f.surround.tags = f.tags :=
  (appendAnything_tags _).trans (prependAnything_tags _)

theorem reverse_tags (f : Fsm) : f.reverse.tags = f.tags := rfl

/-! ### `Import` -/

theorem TagsIn.import_ {f g : Fsm} (h : f.TagsIn M) (h2 : g.TagsIn M) : (f.import_ g).TagsIn M := by
  intro q t ht
  simp only [Fsm.import_] at ht
  cases hf : f.tags q with
  | some v => rw [hf] at ht; cases ht; exact h q _ hf
  | none =>
    rw [hf] at ht
    simp only at ht
    split at ht
    · exact h2 _ _ ht
    · cases ht

theorem TagsIn.concat {f g : Fsm} (h : f.TagsIn M) (h2 : g.TagsIn M) : (f.concat g).TagsIn M := by
  refine (h.import_ h2).of_eq ?_
  unfold Fsm.concat
  simp only
  refine (foldl_tags (F := fun (h : Fsm) q => h.setFinal (q + f.size) true) (fun _ _ => rfl) _ _).trans ?_
  exact foldl_tags (F := fun (h : Fsm) (e : Nat × Nat) => h.connectFinal e.2 e.1) (fun g e => connectFinal_tags ..) _ _

theorem TagsIn.union {f g : Fsm} (h : f.TagsIn M) (h2 : g.TagsIn M) : (f.union g).TagsIn M := by
  refine (h.import_ h2).of_eq ?_
  unfold Fsm.union
  simp only
  split
  · rfl
  · split
    · rfl
    · split
      · rfl
      · exact foldl_tags (F := fun (h : Fsm) (p : Nat) =>
          (h.connect h.initial (p + f.size) Epsilon).disconnect (g.initial + f.size) (p + f.size) Epsilon) (fun _ _ => rfl) _ _

theorem TagsIn.init : Fsm.init.TagsIn M := by intro q t ht; cases ht

theorem TagsIn.power {f : Fsm} (h : f.TagsIn M) (n : Nat) : (f.power n).TagsIn M := by
  induction n with
  | zero => exact TagsIn.init
  | succ n ih => exact ih.concat h

/-! ### Determinisation and minimisation: bitwise or -/

section
variable (hM : ∀ a b, M a → M b → M (a ||| b))
include hM

theorem foldl_tagsIn {β : Type} {F : Fsm → β → Fsm} (h : ∀ f x, f.TagsIn M → (F f x).TagsIn M) (l : List β) {f : Fsm}
    (hf : f.TagsIn M) : (l.foldl F f).TagsIn M := by
  induction l generalizing f with
  | nil => exact hf
  | cons x l ih => exact ih (h f x hf)

theorem getD_or {o : Option Nat} {t : Nat} (ho : ∀ x, o = some x → M x) (ht : M t) : M (o.getD 0 ||| t) := by
  cases o with
  | none => simpa using ht
  | some x => exact hM _ _ (ho x rfl) ht

theorem TagsIn.mergeEps {f : Fsm} (h : f.TagsIn M) (q p : Nat) : (f.mergeEps q p).TagsIn M := by
  intro x t ht
  simp only [Fsm.mergeEps] at ht
  cases hp : f.tags p with
  | none => rw [hp] at ht; exact h x t ht
  | some u =>
    rw [hp] at ht
    simp only at ht
    by_cases hx : x = q
    · subst hx
      rw [Function.update_self] at ht
      cases ht
      exact getD_or hM (h _) (h p u hp)
    · rw [Function.update_of_ne hx] at ht
      exact h x t ht

theorem TagsIn.removeEpsilons {f : Fsm} (h : f.TagsIn M) : f.removeEpsilons.TagsIn M := by
  unfold Fsm.removeEpsilons
  simp only
  have h1 : ∀ (l : List Nat) (st : REState), st.fsm.TagsIn M → (l.foldl closeThru st).fsm.TagsIn M := by
    intro l
    induction l with
    | nil => intro st hst; exact hst
    | cons x l ih =>
      intro st hst
      refine ih _ ?_
      unfold closeThru
      generalize elems (st.inveps x) = l'
      induction l' generalizing st with
      | nil => exact hst
      | cons y l' ih' =>
        refine ih' _ ?_
        beta_reduce
        split
        · exact hst.of_eq (connectAll_tags ..)
        · exact hst
  refine TagsIn.of_eq (foldl_tagsIn hM (F := mergeFrom) ?_ _ (h1 _ _ (h.of_eq rfl))) rfl
  intro g q hg
  unfold mergeFrom
  refine foldl_tagsIn hM ?_ _ hg
  intro g' p hg'
  split
  · exact hg'.mergeEps hM q p
  · exact hg'

theorem TagsIn.determine {f : Fsm} (h : f.TagsIn M) (m : Nat) : (f.determine m).1.TagsIn M := by
  unfold Fsm.determine
  split
  · exact h
  · have hr := h.removeEpsilons hM
    simp only
    split
    · rename_i states conns _
      intro q t ht
      have : (f.removeEpsilons.buildDetermined states conns).tags =
          fun ns => if ns < states.length then f.removeEpsilons.orTags (states.getD ns ∅) else none := by
        unfold buildDetermined
        exact connectAll_tags ..
      have ht' : (f.removeEpsilons.buildDetermined states conns).tags q = some t := ht
      rw [this] at ht'
      simp only at ht'
      split at ht'
      · unfold orTags at ht'
        revert ht'
        suffices hs : ∀ (l : List Nat) (acc : Option Nat), (∀ x, acc = some x → M x) → ∀ x, l.foldl (fun acc j =>
            match f.removeEpsilons.tags j with | none => acc | some t => some (acc.getD 0 ||| t)) acc = some x → M x from
          fun hh => hs _ none (by simp) _ hh
        intro l
        induction l with
        | nil => intro acc ha x hx; exact ha x hx
        | cons j l ih =>
          intro acc ha x hx
          rw [List.foldl_cons] at hx
          refine ih _ ?_ x hx
          intro y hy
          cases hj : f.removeEpsilons.tags j with
          | none => rw [hj] at hy; exact ha y hy
          | some u => rw [hj] at hy; cases hy; exact getD_or hM ha (hr j u hj)
      · cases ht'
    · exact hr

theorem TagsIn.minimize {f : Fsm} (h : f.TagsIn M) : f.minimize.TagsIn M := by
  unfold Fsm.minimize
  split
  · simp only
    generalize (f.minTask.run f.minCls f.minClasses).cls = cls
    generalize (f.minTask.run f.minCls f.minClasses).classes = n
    intro q t ht
    have ht' : (f.mergeClasses cls n).tags q = some t := ht
    simp only [mergeClasses] at ht'
    rw [connectAll_tags] at ht'
    revert ht'
    suffices hs : ∀ (l : List Nat) (ts : Nat → Option Nat), (∀ k x, ts k = some x → M x) → ∀ k x, l.foldl (fun ts q => match f.tags q with
        | none => ts
        | some t => Function.update ts (cls q) (some ((ts (cls q)).getD 0 ||| t))) ts k = some x → M x from
      fun hh => hs _ _ (by intro k x hx; cases hx) _ _ hh
    intro l
    induction l with
    | nil => intro ts ha k x hx; exact ha k x hx
    | cons j l ih =>
      intro ts ha k x hx
      rw [List.foldl_cons] at hx
      refine ih _ ?_ k x hx
      intro k' y hy
      cases hj : f.tags j with
      | none => rw [hj] at hy; exact ha k' y hy
      | some u =>
        rw [hj] at hy
        simp only at hy
        by_cases hk : k' = cls j
        · subst hk; rw [Function.update_self] at hy; cases hy; exact getD_or hM (ha _) (h j u hj)
        · rw [Function.update_of_ne hk] at hy; exact ha k' y hy
  · exact h

theorem TagsIn.canonize {f g : Fsm} (h : f.TagsIn M) {m : Nat} (hg : f.canonize m = some g) : g.TagsIn M := by
  unfold Fsm.canonize at hg
  split at hg
  · cases hg; exact h.minimize hM
  · simp only at hg
    split at hg
    · cases hg; exact (h.determine hM m).minimize hM
    · cases hg

theorem TagsIn.complement {f g : Fsm} (h : f.TagsIn M) (hg : f.complement = some g) : g.TagsIn M := by
  unfold Fsm.complement at hg
  simp only at hg
  split at hg
  · cases hg
    exact ((h.determine hM 0).minimize hM).of_eq (connectAll_tags ..)
  · cases hg

theorem TagsIn.inter {f r g : Fsm} (h : f.TagsIn M) (h2 : r.TagsIn M) (hg : f.inter r = some g) : g.TagsIn M := by
  unfold Fsm.inter at hg
  simp only [Option.bind_eq_bind, Option.bind_eq_some_iff] at hg
  obtain ⟨a, ha, b, hb, hg⟩ := hg
  exact ((h.complement hM hb).union (h2.complement hM ha)).complement hM hg

end

theorem TagsClean.canonize {f g : Fsm} (h : f.TagsClean) {m : Nat} (hg : f.canonize m = some g) : g.TagsClean :=
  TagsIn.canonize (M := (· % 4 = 0)) or_mod4 h hg

end Fsm
end Pire
