import Verif.Model.Partition
import Mathlib.Data.List.Nodup
import Mathlib.Data.List.Perm.Basic

/-! # Invariants of `Partition` -/

namespace Pire
namespace Partition

/-- Internal consistency of a partition. -/
structure WF (p : Partition) : Prop where
  rep_mem : ∀ e ∈ p.set, e.rep ∈ e.members
  inv_iff : ∀ c r, p.inv c = some r ↔ ∃ e ∈ p.set, e.rep = r ∧ c ∈ e.members
  sorted : p.set.Pairwise (fun a b => a.rep < b.rep)
  idx_nodup : (p.set.map PClass.idx).Nodup
  idx_lt : ∀ e ∈ p.set, e.idx < p.set.length
  maxidx_eq : p.maxidx = p.set.length
  mem_nodup : ∀ e ∈ p.set, e.members.Nodup

theorem pushTo_some {eq : Nat → Nat → Bool} {t : Nat} {l s : List PClass} {r : Nat}
    (h : pushTo eq t l = some (s, r)) :
    ∃ pre e post, l = pre ++ e :: post ∧ (∀ x ∈ pre, eq x.rep t = false) ∧ eq e.rep t = true ∧ r = e.rep ∧
      s = pre ++ { e with members := e.members ++ [t] } :: post := by
  induction l generalizing s r with
  | nil => simp [pushTo] at h
  | cons x xs ih =>
    unfold pushTo at h
    split at h
    · rename_i hx
      simp only [Option.some.injEq, Prod.mk.injEq] at h
      exact ⟨[], x, xs, rfl, by simp, hx, h.2.symm, h.1.symm⟩
    · rename_i hx
      cases hp : pushTo eq t xs with
      | none => simp [hp] at h
      | some pr =>
        simp only [hp, Option.map_some, Option.some.injEq, Prod.mk.injEq] at h
        obtain ⟨pre, e, post, hl, hpre, he, hr, hs⟩ := ih (s := pr.1) (r := pr.2) hp
        refine ⟨x :: pre, e, post, by simp [hl], ?_, he, h.2 ▸ hr, by rw [← h.1, hs]; rfl⟩
        intro y hy
        rcases List.mem_cons.1 hy with rfl | hy
        · simpa using hx
        · exact hpre y hy

theorem pushTo_none {eq : Nat → Nat → Bool} {t : Nat} {l : List PClass}
    (h : pushTo eq t l = none) : ∀ e ∈ l, eq e.rep t = false := by
  induction l with
  | nil => simp
  | cons x xs ih =>
    unfold pushTo at h
    split at h
    · simp at h
    · rename_i hx
      simp only [Option.map_eq_none_iff] at h
      intro e he
      rcases List.mem_cons.1 he with rfl | he
      · simpa using hx
      · exact ih h e he

theorem insertSorted_perm {e : PClass} {l : List PClass} (h : ∀ x ∈ l, x.rep ≠ e.rep) :
    (insertSorted e l).Perm (e :: l) := by
  induction l with
  | nil => simp [insertSorted]
  | cons x xs ih =>
    unfold insertSorted
    split
    · exact List.Perm.refl _
    · split
      · rename_i h2; exact absurd h2.symm (h x (by simp))
      · exact ((ih (fun y hy => h y (by simp [hy]))).cons x).trans (List.Perm.swap _ _ _)

theorem insertSorted_sorted {e : PClass} {l : List PClass} (h : ∀ x ∈ l, x.rep ≠ e.rep)
    (hs : l.Pairwise (fun a b => a.rep < b.rep)) :
    (insertSorted e l).Pairwise (fun a b => a.rep < b.rep) := by
  induction l with
  | nil => simp [insertSorted]
  | cons x xs ih =>
    unfold insertSorted
    rw [List.pairwise_cons] at hs
    split
    · rename_i h1
      refine List.pairwise_cons.2 ⟨?_, List.pairwise_cons.2 hs⟩
      intro y hy
      rcases List.mem_cons.1 hy with rfl | hy
      · exact h1
      · exact lt_trans h1 (hs.1 y hy)
    · split
      · rename_i h2; exact absurd h2.symm (h x (by simp))
      · rename_i h1 h2
        refine List.pairwise_cons.2 ⟨?_, ih (fun y hy => h y (by simp [hy])) hs.2⟩
        intro y hy
        rw [(insertSorted_perm (fun y hy => h y (by simp [hy]))).mem_iff] at hy
        rcases List.mem_cons.1 hy with rfl | hy
        · omega
        · exact hs.1 y hy

theorem WF.empty : Partition.empty.WF := by
  constructor <;> simp [Partition.empty]

theorem WF.class_unique {p : Partition} (h : p.WF) {e e' : PClass} (he : e ∈ p.set) (he' : e' ∈ p.set)
    (hr : e.rep = e'.rep) : e = e' := by
  by_contra hne
  have hh : p.set.Pairwise (fun a b => a.rep ≠ b.rep) := h.sorted.imp (fun h => Nat.ne_of_lt h)
  have : Std.Symm (fun a b : PClass => a.rep ≠ b.rep) := ⟨fun a b hab => hab.symm⟩
  exact (hh.forall he he' hne) hr

theorem WF.inv_of_mem {p : Partition} (h : p.WF) {e : PClass} (he : e ∈ p.set) {c : Nat} (hc : c ∈ e.members) :
    p.inv c = some e.rep := (h.inv_iff _ _).2 ⟨e, he, rfl, hc⟩

theorem WF.inv_rep {p : Partition} (h : p.WF) {c r : Nat} (hc : p.inv c = some r) : p.inv r = some r := by
  obtain ⟨e, he, rfl, _⟩ := (h.inv_iff _ _).1 hc
  exact h.inv_of_mem he (h.rep_mem e he)

theorem WF.class_unique' {p : Partition} (h : p.WF) {e e' : PClass} (he : e ∈ p.set) (he' : e' ∈ p.set)
    {c : Nat} (hc : c ∈ e.members) (hc' : c ∈ e'.members) : e = e' := by
  apply h.class_unique he he'
  have h1 := h.inv_of_mem he hc
  rw [h.inv_of_mem he' hc'] at h1
  exact (Option.some.inj h1).symm

theorem WF.append {p : Partition} (h : p.WF) {eq : Nat → Nat → Bool} {t : Nat} (ht : p.inv t = none) :
    (p.append eq t).WF := by
  have hfresh : ∀ e ∈ p.set, t ∉ e.members := by
    intro e he hm
    rw [h.inv_of_mem he hm] at ht
    exact absurd ht (by simp)
  unfold Partition.append
  split
  · rename_i s r hp
    obtain ⟨pre, e, post, hl, -, -, rfl, rfl⟩ := pushTo_some hp
    have hmem : ∀ x, x ∈ pre ++ { e with members := e.members ++ [t] } :: post ↔
        x = { e with members := e.members ++ [t] } ∨ x ∈ pre ∨ x ∈ post := by
      intro x; simp only [List.mem_append, List.mem_cons]; tauto
    have hmem' : ∀ x, x ∈ p.set ↔ x = e ∨ x ∈ pre ∨ x ∈ post := by
      intro x; rw [hl]; simp only [List.mem_append, List.mem_cons]; tauto
    have hnd : p.set.Nodup := (h.sorted.imp (fun h => by intro e; subst e; exact lt_irrefl _ h))
    have hne : e ∉ pre ∧ e ∉ post := by
      rw [hl] at hnd
      rw [List.nodup_append] at hnd
      obtain ⟨_, h2, h3⟩ := hnd
      rw [List.nodup_cons] at h2
      exact ⟨fun hh => h3 e hh e (by simp) rfl, h2.1⟩
    constructor
    · intro x hx
      rcases (hmem x).1 hx with rfl | hx
      · simp [h.rep_mem e ((hmem' e).2 (.inl rfl))]
      · exact h.rep_mem x ((hmem' x).2 (.inr hx))
    · intro c r
      simp only [Function.update_apply]
      constructor
      · intro hc
        split at hc
        · rename_i hct
          subst hct
          refine ⟨_, (hmem _).2 (.inl rfl), by simpa using hc, by simp⟩
        · obtain ⟨x, hx, hr, hcx⟩ := (h.inv_iff _ _).1 hc
          rcases (hmem' x).1 hx with rfl | hx
          · exact ⟨_, (hmem _).2 (.inl rfl), hr, by simp [hcx]⟩
          · exact ⟨x, (hmem _).2 (.inr hx), hr, hcx⟩
      · rintro ⟨x, hx, hr, hcx⟩
        rcases (hmem x).1 hx with rfl | hx
        · simp only [List.mem_append, List.mem_singleton] at hcx
          by_cases hct : c = t
          · simp [hct, ← hr]
          · simp only [hct, or_false, if_false] at hcx ⊢
            exact (h.inv_iff _ _).2 ⟨e, (hmem' e).2 (.inl rfl), hr, hcx⟩
        · have hx' := (hmem' x).2 (.inr hx)
          rw [if_neg (by rintro rfl; exact hfresh x hx' hcx)]
          exact (h.inv_iff _ _).2 ⟨x, hx', hr, hcx⟩
    · have := h.sorted
      rw [hl] at this
      simp only [List.pairwise_append, List.pairwise_cons, List.mem_cons] at this ⊢
      refine ⟨this.1, ⟨this.2.1.1, this.2.1.2⟩, ?_⟩
      intro a ha b hb
      rcases hb with rfl | hb
      · exact this.2.2 a ha e (.inl rfl)
      · exact this.2.2 a ha b (.inr hb)
    · have := h.idx_nodup
      rw [hl] at this
      simpa using this
    · intro x hx
      have hlen : (pre ++ { e with members := e.members ++ [t] } :: post).length = p.set.length := by
        rw [hl]; simp
      rw [hlen]
      rcases (hmem x).1 hx with rfl | hx
      · exact h.idx_lt e ((hmem' e).2 (.inl rfl))
      · exact h.idx_lt x ((hmem' x).2 (.inr hx))
    · have := h.maxidx_eq
      rw [hl] at this
      simpa using this
    · intro x hx
      rcases (hmem x).1 hx with rfl | hx
      · have h1 := h.mem_nodup e ((hmem' e).2 (.inl rfl))
        have h2 := hfresh e ((hmem' e).2 (.inl rfl))
        simp only [List.nodup_append, List.nodup_singleton, List.mem_singleton]
        exact ⟨h1, trivial, by rintro a ha b rfl rfl; exact h2 ha⟩
      · exact h.mem_nodup x ((hmem' x).2 (.inr hx))
  · rename_i hp
    have hrep : ∀ x ∈ p.set, x.rep ≠ t := by
      intro x hx hxt
      exact hfresh x hx (hxt ▸ h.rep_mem x hx)
    have hperm := insertSorted_perm (e := ⟨t, p.maxidx, [t]⟩) hrep
    have hmem : ∀ x, x ∈ insertSorted ⟨t, p.maxidx, [t]⟩ p.set ↔ x = ⟨t, p.maxidx, [t]⟩ ∨ x ∈ p.set := by
      intro x; rw [hperm.mem_iff]; simp
    constructor
    · intro x hx
      rcases (hmem x).1 hx with rfl | hx
      · simp
      · exact h.rep_mem x hx
    · intro c r
      simp only [Function.update_apply]
      constructor
      · intro hc
        split at hc
        · rename_i hct
          exact ⟨_, (hmem _).2 (.inl rfl), by simpa using hc, by simp [hct]⟩
        · obtain ⟨x, hx, hr, hcx⟩ := (h.inv_iff _ _).1 hc
          exact ⟨x, (hmem _).2 (.inr hx), hr, hcx⟩
      · rintro ⟨x, hx, hr, hcx⟩
        rcases (hmem x).1 hx with rfl | hx'
        · simp only [List.mem_singleton] at hcx
          simp [hcx, ← hr]
        · rw [if_neg (by rintro rfl; exact hfresh x hx' hcx)]
          exact (h.inv_iff _ _).2 ⟨x, hx', hr, hcx⟩
    · exact insertSorted_sorted hrep h.sorted
    · have := hperm.map PClass.idx
      rw [this.nodup_iff]
      simp only [List.map_cons, List.nodup_cons]
      refine ⟨?_, h.idx_nodup⟩
      intro hin
      obtain ⟨x, hx, hxi⟩ := List.mem_map.1 hin
      have := h.idx_lt x hx
      rw [hxi, h.maxidx_eq] at this
      exact lt_irrefl _ this
    · intro x hx
      rw [hperm.length_eq]
      rcases (hmem x).1 hx with rfl | hx
      · simp [h.maxidx_eq]
      · have := h.idx_lt x hx
        simp only [List.length_cons]; omega
    · rw [hperm.length_eq]; simp [h.maxidx_eq]
    · intro x hx
      rcases (hmem x).1 hx with rfl | hx
      · simp
      · exact h.mem_nodup x hx

/-- Which letters are classified after an append. -/
theorem inv_append_isSome {p : Partition} {eq : Nat → Nat → Bool} {t c : Nat} :
    ((p.append eq t).inv c).isSome = true ↔ c = t ∨ (p.inv c).isSome = true := by
  unfold Partition.append
  split <;> simp only [Function.update_apply] <;> split <;> simp_all

theorem inv_append_ne {p : Partition} {eq : Nat → Nat → Bool} {t c : Nat} (h : c ≠ t) :
    (p.append eq t).inv c = p.inv c := by
  unfold Partition.append
  split <;> simp [h]

/-- The class of the new item: an equivalent representative, or itself. -/
theorem inv_append_self {p : Partition} {eq : Nat → Nat → Bool} {t : Nat} :
    (∃ e ∈ p.set, eq e.rep t = true ∧ (p.append eq t).inv t = some e.rep) ∨
    ((∀ e ∈ p.set, eq e.rep t = false) ∧ (p.append eq t).inv t = some t) := by
  unfold Partition.append
  split
  · rename_i s r hp
    obtain ⟨pre, e, post, hl, -, he, rfl, rfl⟩ := pushTo_some hp
    exact .inl ⟨e, by rw [hl]; simp, he, by simp⟩
  · rename_i hp
    exact .inr ⟨pushTo_none hp, by simp⟩

/-- Appending a list of distinct new items. -/
theorem WF.foldl_append {eq : Nat → Nat → Bool} {l : List Nat} {p : Partition} (h : p.WF)
    (hnd : l.Nodup) (hl : ∀ t ∈ l, p.inv t = none) : (l.foldl (fun p t => p.append eq t) p).WF := by
  induction l generalizing p with
  | nil => exact h
  | cons t l ih =>
    rw [List.nodup_cons] at hnd
    refine ih (h.append (hl t (by simp))) hnd.2 ?_
    intro t' ht'
    rw [inv_append_ne (by rintro rfl; exact hnd.1 ht')]
    exact hl t' (by simp [ht'])

theorem inv_foldl_isSome {eq : Nat → Nat → Bool} {l : List Nat} {p : Partition} {c : Nat} :
    ((l.foldl (fun p t => p.append eq t) p).inv c).isSome = true ↔ c ∈ l ∨ (p.inv c).isSome = true := by
  induction l generalizing p with
  | nil => simp
  | cons t l ih => rw [List.foldl_cons, ih, inv_append_isSome, List.mem_cons]; tauto

/-- Soundness of the classification with respect to an equivalence. -/
def Classifies (p : Partition) (eq : Nat → Nat → Bool) : Prop :=
  (∀ c r, p.inv c = some r → eq r c = true) ∧
  (∀ e ∈ p.set, ∀ e' ∈ p.set, eq e.rep e'.rep = true → e.rep = e'.rep)

theorem Classifies.append {p : Partition} {eq : Nat → Nat → Bool} {t : Nat} (hw : p.WF) (ht : p.inv t = none)
    (h : p.Classifies eq)
    (hrefl : ∀ a, eq a a = true) (hsymm : ∀ a b, eq a b = true → eq b a = true) :
    (p.append eq t).Classifies eq := by
  have hw' := hw.append (eq := eq) ht
  constructor
  · intro c r hc
    by_cases hct : c = t
    · subst hct
      rcases inv_append_self (p := p) (eq := eq) (t := c) with ⟨e, he, heq, hi⟩ | ⟨_, hi⟩
      · rw [hi] at hc; cases hc; exact heq
      · rw [hi] at hc; cases hc; exact hrefl _
    · rw [inv_append_ne hct] at hc
      exact h.1 c r hc
  · have key : ∀ e ∈ (p.append eq t).set, (∃ e0 ∈ p.set, e0.rep = e.rep) ∨
        (e.rep = t ∧ ∀ e0 ∈ p.set, eq e0.rep t = false) := by
      intro e he
      have hi := hw'.inv_of_mem he (hw'.rep_mem e he)
      by_cases hct : e.rep = t
      · rcases inv_append_self (p := p) (eq := eq) (t := t) with ⟨e', he', heq, hi'⟩ | ⟨hall, _⟩
        · rw [hct, hi'] at hi
          exact .inl ⟨e', he', by simpa [hct] using hi⟩
        · exact .inr ⟨hct, hall⟩
      · rw [inv_append_ne hct] at hi
        obtain ⟨e0, he0, hr, _⟩ := (hw.inv_iff _ _).1 hi
        exact .inl ⟨e0, he0, hr⟩
    intro e he e' he' heq
    rcases key e he with ⟨a, ha, hae⟩ | ⟨hae, hall⟩ <;> rcases key e' he' with ⟨b, hb, hbe⟩ | ⟨hbe, hall'⟩
    · rw [← hae, ← hbe] at heq ⊢; exact h.2 a ha b hb heq
    · rw [← hae, hbe] at heq; rw [hall' a ha] at heq; exact absurd heq (by simp)
    · rw [hae, ← hbe] at heq; have := hsymm _ _ heq; rw [hall b hb] at this; exact absurd this (by simp)
    · rw [hae, hbe]

theorem Classifies.foldl_append {eq : Nat → Nat → Bool} {l : List Nat} {p : Partition} (hw : p.WF)
    (h : p.Classifies eq) (hnd : l.Nodup) (hl : ∀ t ∈ l, p.inv t = none)
    (hrefl : ∀ a, eq a a = true) (hsymm : ∀ a b, eq a b = true → eq b a = true) :
    (l.foldl (fun p t => p.append eq t) p).Classifies eq := by
  induction l generalizing p with
  | nil => exact h
  | cons t l ih =>
    rw [List.nodup_cons] at hnd
    refine ih (hw.append (hl t (by simp))) (h.append hw (hl t (by simp)) hrefl hsymm) hnd.2 ?_
    intro t' ht'
    rw [inv_append_ne (by rintro rfl; exact hnd.1 ht')]
    exact hl t' (by simp [ht'])

theorem WF.repOr_mem {p : Partition} (_h : p.WF) {c : Nat} : p.inv c = some (p.repOr c) ∨ p.repOr c = c := by
  unfold repOr
  cases hc : p.inv c <;> simp

theorem WF.repOr_idem {p : Partition} (h : p.WF) {c : Nat} : p.repOr (p.repOr c) = p.repOr c := by
  rcases h.repOr_mem (c := c) with hc | hc
  · have := h.inv_rep hc
    unfold repOr at this ⊢; rw [this]; rfl
  · rw [hc]; exact hc

theorem WF.find_eq {p : Partition} (h : p.WF) {e : PClass} (he : e ∈ p.set) : p.find e.rep = some e := by
  unfold Partition.find
  cases hf : p.set.find? (fun x => x.rep == e.rep) with
  | none =>
    have := List.find?_eq_none.1 hf e he
    simp at this
  | some x =>
    have h1 := List.find?_some hf
    have h2 := List.mem_of_find?_eq_some hf
    rw [h.class_unique h2 he (by simpa using h1)]

theorem WF.index_eq {p : Partition} (h : p.WF) {e : PClass} (he : e ∈ p.set) {c : Nat} (hc : c ∈ e.members) :
    p.index c = some e.idx := by
  unfold Partition.index
  rw [h.inv_of_mem he hc]
  simp [h.find_eq he]

theorem WF.klass_eq {p : Partition} (h : p.WF) {e : PClass} (he : e ∈ p.set) {c : Nat} (hc : c ∈ e.members) :
    p.klass c = some e.members := by
  unfold Partition.klass
  rw [h.inv_of_mem he hc]
  simp [h.find_eq he]

end Partition
end Pire
