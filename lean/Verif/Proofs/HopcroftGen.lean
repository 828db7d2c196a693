import Verif.Model.Minimize
import Mathlib.Data.List.Nodup
import Mathlib.Data.List.Infix
import Mathlib.Data.List.Perm.Subperm
import Mathlib.Data.Finset.Card

/-! # Correctness of the generic minimisation algorithm (Hopcroft's partition refinement) -/

namespace Pire
namespace MTask

/-- The task describes a complete deterministic automaton with transition function `δ`. -/
structure Wf (t : MTask) (δ : Nat → Nat → Nat) : Prop where
  lt : ∀ q < t.size, ∀ l < t.letters, δ q l < t.size
  prev : ∀ p < t.size, ∀ l < t.letters, ∀ q, q ∈ t.prev p l ↔ q < t.size ∧ δ q l = p
  prev_nodup : ∀ p l, (t.prev p l).Nodup

/-- The partition part of the state. -/
structure PInv (t : MTask) (st : MState) : Prop where
  mem : ∀ k q, q ∈ st.cstates k ↔ q < t.size ∧ st.cls q = k
  nodup : ∀ k, (st.cstates k).Nodup
  cls_lt : ∀ q < t.size, st.cls q < st.classes
  onto : ∀ k < st.classes, ∃ q < t.size, st.cls q = k
  pos : 0 < st.classes
  queued : ∀ k l, st.queued k l = true ↔ (k, l) ∈ st.queue
  queue_lt : ∀ k l, (k, l) ∈ st.queue → k < st.classes ∧ l < t.letters
  qnodup : st.queue.Nodup

theorem PInv.classes_le {t : MTask} {st : MState} (h : t.PInv st) : st.classes ≤ t.size := by
  have : (Finset.range st.classes) ⊆ (Finset.range t.size).image st.cls := by
    intro k hk
    obtain ⟨q, hq, rfl⟩ := h.onto k (Finset.mem_range.1 hk)
    exact Finset.mem_image_of_mem _ (Finset.mem_range.2 hq)
  have h1 := Finset.card_le_card this
  have h2 := Finset.card_image_le (s := Finset.range t.size) (f := st.cls)
  simp only [Finset.card_range] at h1 h2
  omega

/-- The invariant of the worklist, with an escape clause for the letter `a` and set `T` being processed. -/
def J (t : MTask) (δ : Nat → Nat → Nat) (st : MState) (esc : Nat → Nat → Nat → Prop) : Prop :=
  ∀ q < t.size, ∀ q' < t.size, st.cls q = st.cls q' → ∀ b < t.letters, st.cls (δ q b) ≠ st.cls (δ q' b) →
    (st.cls (δ q b), b) ∈ st.queue ∨ (st.cls (δ q' b), b) ∈ st.queue ∨ esc q q' b

/-- States related by `R` are in one class. -/
def Coarse (t : MTask) (R : Nat → Nat → Prop) (st : MState) : Prop :=
  ∀ q < t.size, ∀ q' < t.size, R q q' → st.cls q = st.cls q'

/-! ### The marking loop -/

theorem mark_fold {st : MState} (hch : ∀ k, st.change k < st.classes) (hrem : ∀ k, st.removed k = []) (l : List Nat) :
    ∀ r, r = l.foldl mark (st, []) →
    r.1.cls = st.cls ∧ r.1.classes = st.classes ∧ r.1.cstates = st.cstates ∧ r.1.queue = st.queue ∧
    r.1.queued = st.queued ∧ (∀ k, r.1.removed k = l.filter fun q => st.cls q = k) ∧
    (∀ k, r.1.change k = st.classes ↔ k ∈ r.2) ∧ (∀ k, k ∉ r.2 → r.1.change k < st.classes) ∧
    r.2.Nodup ∧ (∀ k, k ∈ r.2 ↔ ∃ q ∈ l, st.cls q = k) := by
  induction l using List.reverseRecOn with
  | nil =>
    rintro r rfl
    refine ⟨rfl, rfl, rfl, rfl, rfl, ?_, ?_, ?_, ?_, ?_⟩
    · intro k; simp [hrem k]
    · intro k
      have := hch k
      simp only [List.foldl_nil, List.not_mem_nil, iff_false]; omega
    · intro k _; exact hch k
    · simp
    · simp
  | append_singleton l q ih =>
    rintro r rfl
    rw [List.foldl_append, List.foldl_cons, List.foldl_nil]
    obtain ⟨h1, h2, h3, h4, h5, h6, h7, h8, h9, h10⟩ := ih _ rfl
    set r := l.foldl mark (st, []) with hr
    obtain ⟨s, sp⟩ := r
    simp only at h1 h2 h3 h4 h5 h6 h7 h8 h9 h10
    unfold mark
    simp only
    by_cases hk : s.change (s.cls q) ≠ s.classes
    · rw [if_pos hk]
      simp only
      rw [h1, h2] at hk
      have hnm : st.cls q ∉ sp := fun hm => hk ((h7 _).2 hm)
      refine ⟨h1, h2, h3, h4, h5, ?_, ?_, ?_, ?_, ?_⟩
      · intro k
        rw [h1, List.filter_append, List.filter_singleton]
        by_cases hkq : st.cls q = k
        · subst hkq; simp [h6]
        · rw [Function.update_of_ne (Ne.symm hkq)]; simp [hkq, h6]
      · intro k
        rw [h1, h2]
        by_cases hkq : k = st.cls q
        · subst hkq; simp
        · rw [Function.update_of_ne hkq]; simp [hkq, h7]
      · intro k hkm
        rw [h1] at hkm ⊢
        have h' : k ∉ sp ∧ k ≠ st.cls q := by simpa [not_or] using hkm
        rw [Function.update_of_ne h'.2]
        exact h8 k h'.1
      · rw [h1, List.nodup_append]
        refine ⟨h9, by simp, ?_⟩
        intro a ha b hb
        rw [List.mem_singleton] at hb
        rintro rfl; subst hb; exact hnm ha
      · intro k
        rw [h1]
        simp only [List.mem_append, List.mem_singleton, h10]
        constructor
        · rintro (⟨x, hx, hxk⟩ | rfl)
          · exact ⟨x, .inl hx, hxk⟩
          · exact ⟨q, .inr rfl, rfl⟩
        · rintro ⟨x, hx | rfl, hxk⟩
          · exact .inl ⟨x, hx, hxk⟩
          · exact .inr hxk.symm
    · rw [if_neg hk]
      simp only
      rw [not_not, h1, h2] at hk
      have hm : st.cls q ∈ sp := (h7 _).1 hk
      refine ⟨h1, h2, h3, h4, h5, ?_, h7, h8, h9, ?_⟩
      · intro k
        rw [h1, List.filter_append, List.filter_singleton]
        by_cases hkq : st.cls q = k
        · subst hkq; simp [h6]
        · rw [Function.update_of_ne (Ne.symm hkq)]; simp [hkq, h6]
      · intro k
        simp only [List.mem_append, List.mem_singleton, h10]
        constructor
        · rintro ⟨x, hx, hxk⟩; exact ⟨x, .inl hx, hxk⟩
        · rintro ⟨x, hx | rfl, hxk⟩
          · exact ⟨x, hx, hxk⟩
          · subst hxk; exact (h10 _).1 hm

/-! ### One split -/

theorem pushLetter_fold (old new : Nat) (hne : old ≠ new) (ls : List Nat) (hnd : ls.Nodup) (st : MState) :
    ∀ r, r = ls.foldl (pushLetter old new) st →
    r.cls = st.cls ∧ r.classes = st.classes ∧ r.cstates = st.cstates ∧ r.change = st.change ∧ r.removed = st.removed ∧
    r.queue.length = st.queue.length + ls.length ∧
    (∀ k l, (k, l) ∈ r.queue ↔ (k, l) ∈ st.queue ∨ (l ∈ ls ∧
      k = if st.queued old l || (st.cstates old).length > (st.cstates new).length then new else old)) ∧
    (∀ k l, r.queued k l = true ↔ st.queued k l = true ∨ (l ∈ ls ∧
      k = if st.queued old l || (st.cstates old).length > (st.cstates new).length then new else old)) := by
  induction ls generalizing st with
  | nil => rintro r rfl; simp
  | cons l ls ih =>
    rw [List.nodup_cons] at hnd
    rintro r rfl
    rw [List.foldl_cons]
    obtain ⟨h1, h2, h3, h4, h5, h6, h7, h8⟩ := ih hnd.2 (pushLetter old new st l) _ rfl
    set r := ls.foldl (pushLetter old new) (pushLetter old new st l) with hr
    refine ⟨h1, h2, h3, h4, h5, ?_, ?_, ?_⟩
    · rw [h6]; simp [pushLetter]; omega
    all_goals
      have hq : ∀ l' ∈ ls, (pushLetter old new st l).queued old l' = st.queued old l' := by
        intro l' hl'
        have : l' ≠ l := by rintro rfl; exact hnd.1 hl'
        simp [pushLetter, this]
      intro k l'
    · rw [h7]
      have e1 : (k, l') ∈ (pushLetter old new st l).queue ↔ (k, l') ∈ st.queue ∨ (l' = l ∧
          k = if st.queued old l || (st.cstates old).length > (st.cstates new).length then new else old) := by
        simp only [pushLetter, List.mem_append, List.mem_singleton, Prod.mk.injEq]
        tauto
      rw [e1, List.mem_cons]
      constructor
      · rintro ((h | ⟨rfl, h⟩) | ⟨hm, h⟩)
        · exact .inl h
        · exact .inr ⟨.inl rfl, h⟩
        · refine .inr ⟨.inr hm, ?_⟩
          rw [h, hq l' hm]; rfl
      · rintro (h | ⟨rfl | hm, h⟩)
        · exact .inl (.inl h)
        · exact .inl (.inr ⟨rfl, h⟩)
        · refine .inr ⟨hm, ?_⟩
          rw [h, hq l' hm]; rfl
    · rw [h8]
      have e1 : (pushLetter old new st l).queued k l' = true ↔ st.queued k l' = true ∨ (l' = l ∧
          k = if st.queued old l || (st.cstates old).length > (st.cstates new).length then new else old) := by
        simp only [pushLetter]
        by_cases h : (k = if st.queued old l || (st.cstates old).length > (st.cstates new).length then new else old) ∧ l' = l
        · rw [if_pos h]
          exact ⟨fun _ => .inr ⟨h.2, h.1⟩, fun _ => rfl⟩
        · rw [if_neg h]
          constructor
          · exact Or.inl
          · rintro (h' | h')
            · exact h'
            · exact absurd ⟨h'.2, h'.1⟩ h
      rw [e1, List.mem_cons]
      constructor
      · rintro ((h | ⟨rfl, h⟩) | ⟨hm, h⟩)
        · exact .inl h
        · exact .inr ⟨.inl rfl, h⟩
        · refine .inr ⟨.inr hm, ?_⟩
          rw [h, hq l' hm]; rfl
      · rintro (h | ⟨rfl | hm, h⟩)
        · exact .inl (.inl h)
        · exact .inl (.inr ⟨rfl, h⟩)
        · refine .inr ⟨hm, ?_⟩
          rw [h, hq l' hm]; rfl

theorem pushLetter_nodup (old new : Nat) (hne : old ≠ new) (ls : List Nat) (hnd : ls.Nodup) (st : MState)
    (h1 : st.queue.Nodup) (h2 : ∀ l ∈ ls, (new, l) ∉ st.queue) (h3 : ∀ l ∈ ls, st.queued old l = true ↔ (old, l) ∈ st.queue) :
    (ls.foldl (pushLetter old new) st).queue.Nodup := by
  induction ls generalizing st with
  | nil => exact h1
  | cons l ls ih =>
    rw [List.nodup_cons] at hnd
    rw [List.foldl_cons]
    apply ih hnd.2
    · simp only [pushLetter]
      rw [List.nodup_append]
      refine ⟨h1, by simp, ?_⟩
      intro a ha b hb
      rw [List.mem_singleton] at hb
      rintro rfl
      subst hb
      have n1 := h2 l (by simp)
      have n2 := h3 l (by simp)
      by_cases hq : st.queued old l = true
      · simp [hq] at ha; exact n1 ha
      · simp only [hq, Bool.false_or] at ha
        split at ha
        · exact n1 ha
        · exact hq (n2.2 ha)
    · intro l' hl'
      have hll : l' ≠ l := by rintro rfl; exact hnd.1 hl'
      simp only [pushLetter, List.mem_append, List.mem_singleton, Prod.mk.injEq, hll, and_false, or_false]
      exact h2 l' (List.mem_cons_of_mem _ hl')
    · intro l' hl'
      have hll : l' ≠ l := by rintro rfl; exact hnd.1 hl'
      simp only [pushLetter, List.mem_append, List.mem_singleton, Prod.mk.injEq, hll, and_false, or_false, if_false]
      exact h3 l' (List.mem_cons_of_mem _ hl')

theorem foldl_update_cls (l : List Nat) (new : Nat) (f : Nat → Nat) (q : Nat) :
    l.foldl (fun f q => Function.update f q new) f q = if q ∈ l then new else f q := by
  induction l generalizing f with
  | nil => simp
  | cons x xs ih =>
    rw [List.foldl_cons, ih]
    by_cases h : q ∈ xs
    · simp [h]
    · by_cases hx : q = x
      · subst hx; simp [h]
      · simp [h, hx]

/-- Situation during the splitting loop: `T` = predecessors of the splitter, `ks` = classes still to be treated. -/
structure SInv (t : MTask) (T : Nat → Prop) (st : MState) (ks : List Nat) : Prop where
  p : t.PInv st
  nodup : ks.Nodup
  removed : ∀ k ∈ ks, (st.removed k).Nodup ∧ (∀ q, q ∈ st.removed k ↔ q < t.size ∧ T q ∧ st.cls q = k) ∧
    st.removed k ≠ []
  clean : ∀ k, k ∉ ks → st.removed k = []
  uniform : ∀ k, k ∉ ks → ∀ q < t.size, ∀ q' < t.size, st.cls q = k → st.cls q' = k → (T q ↔ T q')
  change : ∀ k, k ∉ ks → st.change k < st.classes
  lt : ∀ k ∈ ks, k < st.classes

theorem split_spec {t : MTask} {δ : Nat → Nat → Nat} (hw : t.Wf δ) {T : Nat → Prop} {st : MState} {k : Nat} {ks : List Nat}
    (h : t.SInv T st (k :: ks)) {esc : Nat → Nat → Nat → Prop} (hJ : t.J δ st esc) {R : Nat → Nat → Prop}
    (hR : t.Coarse R st) (hT : ∀ q < t.size, ∀ q' < t.size, R q q' → (T q ↔ T q')) :
    t.SInv T (t.split st k) ks ∧ t.J δ (t.split st k) esc ∧ t.Coarse R (t.split st k) ∧
    (∀ q < t.size, ∀ q' < t.size, (t.split st k).cls q = (t.split st k).cls q' → st.cls q = st.cls q') ∧
    (t.split st k).queue.length + t.letters * (t.size - (t.split st k).classes) =
      st.queue.length + t.letters * (t.size - st.classes) := by
  classical
  have hnd := List.nodup_cons.1 h.nodup
  obtain ⟨r1, r2, r3⟩ := h.removed k (by simp)
  have hsub : st.removed k ⊆ st.cstates k := by
    intro q hq
    have := (r2 q).1 hq
    exact (h.p.mem k q).2 ⟨this.1, this.2.2⟩
  have hle := (List.subperm_of_subset r1 hsub).length_le
  unfold split
  by_cases heq : (st.removed k).length = (st.cstates k).length
  · -- the whole class consists of predecessors
    rw [if_pos heq]
    have hperm := (List.subperm_of_subset r1 hsub).perm_of_length_le (le_of_eq heq.symm)
    have hall : ∀ q < t.size, st.cls q = k → T q := by
      intro q hq hk
      have : q ∈ st.removed k := hperm.mem_iff.2 ((h.p.mem k q).2 ⟨hq, hk⟩)
      exact ((r2 q).1 this).2.1
    refine ⟨⟨⟨h.p.mem, h.p.nodup, h.p.cls_lt, h.p.onto, h.p.pos, h.p.queued, h.p.queue_lt, h.p.qnodup⟩, hnd.2, ?_, ?_, ?_, ?_, ?_⟩, hJ, hR,
      fun _ _ _ _ h => h, rfl⟩
    · intro k' hk'
      have : k' ≠ k := by rintro rfl; exact hnd.1 hk'
      simp only [Function.update_of_ne this]
      exact h.removed k' (List.mem_cons_of_mem _ hk')
    · intro k' hk'
      by_cases hkk : k' = k
      · subst hkk; simp
      · simp only [Function.update_of_ne hkk]
        exact h.clean k' (by simp [hkk, hk'])
    · intro k' hk' q hq q' hq' e e'
      by_cases hkk : k' = k
      · subst hkk; exact ⟨fun _ => hall q' hq' e', fun _ => hall q hq e⟩
      · exact h.uniform k' (by simp [hkk, hk']) q hq q' hq' e e'
    · intro k' hk'
      by_cases hkk : k' = k
      · subst hkk; simpa using h.p.pos
      · simp only [Function.update_of_ne hkk]
        exact h.change k' (by simp [hkk, hk'])
    · exact fun k' hk' => h.lt k' (List.mem_cons_of_mem _ hk')
  · rw [if_neg heq]
    have hk_lt := h.lt k (by simp)
    have hnew_ne : k ≠ st.classes := by omega
    have hnew_empty : st.cstates st.classes = [] := by
      apply List.eq_nil_iff_forall_not_mem.2
      intro q hq
      obtain ⟨hq, hc⟩ := (h.p.mem _ q).1 hq
      have := h.p.cls_lt q hq
      omega
    simp only
    set st1 : MState := { st with
      classes := st.classes + 1
      change := Function.update st.change k st.classes
      removed := Function.update st.removed k (st.cstates st.classes)
      cls := List.foldl (fun f q => Function.update f q st.classes) st.cls
        (Function.update st.cstates st.classes (st.removed k) st.classes)
      cstates := Function.update (Function.update st.cstates st.classes (st.removed k)) k
        (List.filter (fun q => decide ((List.foldl (fun f q => Function.update f q st.classes) st.cls
          (Function.update st.cstates st.classes (st.removed k) st.classes)) q = k))
          (Function.update st.cstates st.classes (st.removed k) k)) } with hst1
    obtain ⟨p1, p2, p3, p4, p5, p6, p7, p8⟩ := pushLetter_fold k st.classes hnew_ne (List.range t.letters)
      List.nodup_range st1 _ rfl
    set r := (List.range t.letters).foldl (pushLetter k st.classes) st1 with hr
    -- the new classification
    have hcls : ∀ q < t.size, r.cls q = if T q ∧ st.cls q = k then st.classes else st.cls q := by
      intro q hq
      rw [p1, hst1]
      simp only [Function.update_self]
      rw [foldl_update_cls]
      by_cases hm : q ∈ st.removed k
      · have := (r2 q).1 hm
        rw [if_pos hm, if_pos this.2]
      · rw [if_neg hm, if_neg]
        intro h'; exact hm ((r2 q).2 ⟨hq, h'⟩)
    have hcls_raw : ∀ q, r.cls q = if q ∈ st.removed k then st.classes else st.cls q := by
      intro q
      rw [p1, hst1]
      simp only [Function.update_self]
      rw [foldl_update_cls]
    have hrk : ∀ k', r.cstates k' = if k' = k then (st.cstates k).filter (fun q => decide (r.cls q = k)) else
        if k' = st.classes then st.removed k else st.cstates k' := by
      intro k'
      rw [p3]
      by_cases hk' : k' = k
      · subst hk'
        rw [if_pos rfl, p1, hst1]
        simp only [Function.update_self, Function.update_of_ne hnew_ne]
      · rw [if_neg hk', hst1]
        simp only [Function.update_of_ne hk']
        by_cases hk'' : k' = st.classes
        · subst hk''; simp
        · rw [Function.update_of_ne hk'', if_neg hk'']
    have hqs : ∀ l < t.letters, ∀ k', (k', l) ∈ r.queue ↔ (k', l) ∈ st.queue ∨
        k' = if st.queued k l || (st1.cstates k).length > (st1.cstates st.classes).length then st.classes else k := by
      intro l hl k'
      rw [p7]
      simp only [List.mem_range, hl, true_and]
      rfl
    -- a class that was queued stays queued under its new name(s)
    have hkeep : ∀ x < t.size, ∀ b < t.letters, (st.cls x, b) ∈ st.queue → (r.cls x, b) ∈ r.queue := by
      intro x hx b hb hq
      rw [hcls x hx]
      split
      · rename_i hx'
        rw [hqs b hb]
        right
        have : st.queued k b = true := by rw [h.p.queued]; rw [← hx'.2]; exact hq
        simp [this]
      · rw [hqs b hb]; exact .inl hq
    have hfiner : ∀ q < t.size, ∀ q' < t.size, r.cls q = r.cls q' → st.cls q = st.cls q' := by
      intro q hq q' hq' e
      rw [hcls q hq, hcls q' hq'] at e
      have l1 := h.p.cls_lt q hq
      have l2 := h.p.cls_lt q' hq'
      split at e <;> split at e
      · rename_i a b; rw [a.2, b.2]
      · omega
      · omega
      · exact e
    have hclasses : r.classes = st.classes + 1 := p2
    have hremoved : r.removed = Function.update st.removed k [] := by rw [p5, hst1, hnew_empty]
    have hchange : r.change = Function.update st.change k st.classes := by rw [p4]
    refine ⟨⟨⟨?_, ?_, ?_, ?_, ?_, ?_, ?_, ?_⟩, hnd.2, ?_, ?_, ?_, ?_, ?_⟩, ?_, ?_, hfiner, ?_⟩
    · -- mem
      intro k' q
      rw [hrk]
      by_cases hk' : k' = k
      · subst hk'
        rw [if_pos rfl, List.mem_filter, h.p.mem, decide_eq_true_eq]
        constructor
        · rintro ⟨⟨a, _⟩, b⟩; exact ⟨a, b⟩
        · rintro ⟨a, b⟩
          refine ⟨⟨a, ?_⟩, b⟩
          rw [hcls q a] at b
          split at b
          · omega
          · exact b
      · rw [if_neg hk']
        by_cases hk'' : k' = st.classes
        · subst hk''
          rw [if_pos rfl, r2]
          constructor
          · rintro ⟨a, b⟩
            refine ⟨a, ?_⟩
            rw [hcls q a, if_pos b]
          · rintro ⟨a, b⟩
            refine ⟨a, ?_⟩
            rw [hcls q a] at b
            by_contra hcon
            rw [if_neg hcon] at b
            have := h.p.cls_lt q a
            omega
        · rw [if_neg hk'', h.p.mem]
          constructor
          · rintro ⟨a, b⟩
            refine ⟨a, ?_⟩
            rw [hcls q a, if_neg, b]
            rintro ⟨_, c⟩; exact hk' (b.symm.trans c)
          · rintro ⟨a, b⟩
            refine ⟨a, ?_⟩
            rw [hcls q a] at b
            split at b
            · exact absurd b.symm hk''
            · exact b
    · -- nodup
      intro k'
      rw [hrk]
      split
      · exact (h.p.nodup k).filter _
      · split
        · exact r1
        · exact h.p.nodup k'
    · -- cls_lt
      intro q hq
      rw [hcls q hq, hclasses]
      have := h.p.cls_lt q hq
      split <;> omega
    · -- onto
      intro k' hk'
      rw [hclasses] at hk'
      by_cases hkn : k' = st.classes
      · subst hkn
        obtain ⟨q, hq⟩ := List.exists_mem_of_ne_nil _ r3
        have := (r2 q).1 hq
        exact ⟨q, this.1, by rw [hcls q this.1, if_pos this.2]⟩
      · by_cases hkk : k' = k
        · subst hkk
          -- some state of the class is not a predecessor
          by_contra hcon
          apply heq
          apply Nat.le_antisymm hle
          apply (List.subperm_of_subset (h.p.nodup k') ?_).length_le
          intro q hq
          have hq' := (h.p.mem k' q).1 hq
          by_contra hnm
          apply hcon
          refine ⟨q, hq'.1, ?_⟩
          rw [hcls_raw, if_neg hnm]
          exact hq'.2
        · obtain ⟨q, hq, hqk⟩ := h.p.onto k' (by omega)
          refine ⟨q, hq, ?_⟩
          rw [hcls q hq, if_neg, hqk]
          rintro ⟨_, c⟩; exact hkk (hqk.symm.trans c)
    · rw [hclasses]; omega
    · -- queued
      intro k' l
      rw [p8, p7]
      have : st1.queued k' l = true ↔ (k', l) ∈ st1.queue := h.p.queued k' l
      rw [this]
    · -- queue_lt
      intro k' l hm
      rw [p7] at hm
      rw [hclasses]
      rcases hm with hm | ⟨hl, hk'⟩
      · have := h.p.queue_lt k' l hm; omega
      · rw [List.mem_range] at hl
        refine ⟨?_, hl⟩
        rw [hk']
        split <;> omega
    · -- qnodup
      apply pushLetter_nodup k st.classes hnew_ne (List.range t.letters) List.nodup_range st1
      · exact h.p.qnodup
      · intro l _ hm
        have := h.p.queue_lt _ _ hm
        omega
      · intro l _; exact h.p.queued k l
    · -- removed
      intro k' hk'
      have hne : k' ≠ k := by rintro rfl; exact hnd.1 hk'
      have hlt := h.lt k' (List.mem_cons_of_mem _ hk')
      obtain ⟨a, b, c⟩ := h.removed k' (List.mem_cons_of_mem _ hk')
      rw [hremoved, Function.update_of_ne hne]
      refine ⟨a, ?_, c⟩
      intro q
      rw [b]
      constructor
      · rintro ⟨x, y, z⟩
        refine ⟨x, y, ?_⟩
        rw [hcls q x, if_neg, z]
        rintro ⟨_, w⟩; exact hne (z.symm.trans w)
      · rintro ⟨x, y, z⟩
        refine ⟨x, y, ?_⟩
        rw [hcls q x] at z
        split at z
        · omega
        · exact z
    · -- clean
      intro k' hk'
      rw [hremoved]
      by_cases hkk : k' = k
      · subst hkk; simp
      · rw [Function.update_of_ne hkk]; exact h.clean k' (by simp [hkk, hk'])
    · -- uniform
      intro k' hk' q hq q' hq' e e'
      rw [hcls q hq] at e
      rw [hcls q' hq'] at e'
      have l1 := h.p.cls_lt q hq
      have l2 := h.p.cls_lt q' hq'
      split at e <;> split at e'
      · rename_i a b; exact ⟨fun _ => b.1, fun _ => a.1⟩
      · omega
      · omega
      · rename_i a b
        by_cases hkk : k' = k
        · subst hkk
          constructor
          · intro ht; exact absurd ⟨ht, e⟩ a
          · intro ht; exact absurd ⟨ht, e'⟩ b
        · exact h.uniform k' (by simp [hkk, hk']) q hq q' hq' e e'
    · -- change
      intro k' hk'
      rw [hchange, hclasses]
      by_cases hkk : k' = k
      · subst hkk; simp
      · rw [Function.update_of_ne hkk]
        have := h.change k' (by simp [hkk, hk'])
        omega
    · intro k' hk'
      have := h.lt k' (List.mem_cons_of_mem _ hk')
      rw [hclasses]; omega
    · -- J
      intro q hq q' hq' e b hb hne
      have hx := hw.lt q hq b hb
      have hy := hw.lt q' hq' b hb
      by_cases hold : st.cls (δ q b) = st.cls (δ q' b)
      · -- the target class has just been split
        have hx' := hcls (δ q b) hx
        have hy' := hcls (δ q' b) hy
        rw [← hold] at hy'
        have hboth : (r.cls (δ q b) = k ∧ r.cls (δ q' b) = st.classes) ∨
            (r.cls (δ q b) = st.classes ∧ r.cls (δ q' b) = k) := by
          by_cases c1 : T (δ q b) ∧ st.cls (δ q b) = k <;> by_cases c2 : T (δ q' b) ∧ st.cls (δ q b) = k
          · exact absurd (by rw [hx', hy', if_pos c1, if_pos c2]) hne
          · rw [if_pos c1] at hx'
            rw [if_neg c2] at hy'
            exact .inr ⟨hx', hy'.trans c1.2⟩
          · rw [if_neg c1] at hx'
            rw [if_pos c2] at hy'
            exact .inl ⟨hx'.trans c2.2, hy'⟩
          · exact absurd (by rw [hx', hy', if_neg c1, if_neg c2]) hne
        have hin : (k, b) ∈ r.queue ∨ (st.classes, b) ∈ r.queue := by
          rw [hqs b hb, hqs b hb]
          split
          · exact .inr (.inr rfl)
          · exact .inl (.inr rfl)
        rcases hboth with ⟨u, v⟩ | ⟨u, v⟩ <;> rw [u, v] <;> tauto
      · rcases hJ q hq q' hq' (hfiner q hq q' hq' e) b hb hold with hm | hm | hm
        · exact .inl (hkeep _ hx b hb hm)
        · exact .inr (.inl (hkeep _ hy b hb hm))
        · exact .inr (.inr hm)
    · -- coarse
      intro q hq q' hq' hr'
      have e := hR q hq q' hq' hr'
      have ht := hT q hq q' hq' hr'
      rw [hcls q hq, hcls q' hq', ← e]
      simp only [ht]
    · rw [p6, List.length_range, hclasses]
      have hle' : r.classes ≤ t.size := by
        -- count: classes ≤ size, via surjectivity shown above is not yet packaged, so recompute
        rw [hclasses]
        by_contra hcon
        have hfull : st.classes = t.size := by have := h.p.classes_le; omega
        -- every class is then a singleton, so a class cannot be properly split
        apply heq
        apply Nat.le_antisymm hle
        have hinj : ∀ q < t.size, ∀ q' < t.size, st.cls q = st.cls q' → q = q' := by
          have himg : (Finset.range t.size).image st.cls = Finset.range t.size := by
            apply Finset.Subset.antisymm
            · intro x hx
              obtain ⟨q, hq, rfl⟩ := Finset.mem_image.1 hx
              have := h.p.cls_lt q (Finset.mem_range.1 hq)
              exact Finset.mem_range.2 (by omega)
            · intro x hx
              obtain ⟨q, hq, rfl⟩ := h.p.onto x (by have := Finset.mem_range.1 hx; omega)
              exact Finset.mem_image_of_mem _ (Finset.mem_range.2 hq)
          have hcard : ((Finset.range t.size).image st.cls).card = (Finset.range t.size).card := by rw [himg]
          have := Finset.card_image_iff.1 hcard
          intro q hq q' hq' e
          exact this (by simpa using hq) (by simpa using hq') e
        obtain ⟨q, hq⟩ := List.exists_mem_of_ne_nil _ r3
        have hqk := (r2 q).1 hq
        apply (List.subperm_of_subset (h.p.nodup k) ?_).length_le
        intro q' hq'
        have hq'' := (h.p.mem k q').1 hq'
        have := hinj q hqk.1 q' hq''.1 (by rw [hqk.2.2, hq''.2])
        subst this; exact hq
      rw [hclasses] at hle'
      have : t.size - st.classes = (t.size - (st.classes + 1)) + 1 := by omega
      rw [this, Nat.mul_add, Nat.mul_one]
      change st.queue.length + t.letters + _ = _
      omega

/-! ### The splitting loop and the main loop -/

theorem split_fold {t : MTask} {δ : Nat → Nat → Nat} (hw : t.Wf δ) {T : Nat → Prop} {R : Nat → Nat → Prop}
    {esc : Nat → Nat → Nat → Prop} (hT : ∀ q < t.size, ∀ q' < t.size, R q q' → (T q ↔ T q')) (ks : List Nat) :
    ∀ st, t.SInv T st ks → t.J δ st esc → t.Coarse R st →
    t.SInv T (ks.foldl t.split st) [] ∧ t.J δ (ks.foldl t.split st) esc ∧ t.Coarse R (ks.foldl t.split st) ∧
    (∀ q < t.size, ∀ q' < t.size, (ks.foldl t.split st).cls q = (ks.foldl t.split st).cls q' → st.cls q = st.cls q') ∧
    (ks.foldl t.split st).queue.length + t.letters * (t.size - (ks.foldl t.split st).classes) =
      st.queue.length + t.letters * (t.size - st.classes) := by
  induction ks with
  | nil => intro st h hJ hR; exact ⟨h, hJ, hR, fun _ _ _ _ h => h, rfl⟩
  | cons k ks ih =>
    intro st h hJ hR
    obtain ⟨a, b, c, d, e⟩ := split_spec hw h hJ hR hT
    obtain ⟨a', b', c', d', e'⟩ := ih _ a b c
    rw [List.foldl_cons]
    exact ⟨a', b', c', fun q hq q' hq' h => d q hq q' hq' (d' q hq q' hq' h), e'.trans e⟩

/-- Invariant of the main loop. -/
structure MInv (t : MTask) (δ : Nat → Nat → Nat) (R : Nat → Nat → Prop) (cls0 : Nat → Nat) (st : MState) : Prop where
  p : t.PInv st
  clean : ∀ k, st.removed k = []
  change : ∀ k, st.change k < st.classes
  j : t.J δ st fun _ _ _ => False
  coarse : t.Coarse R st
  fine : ∀ q < t.size, ∀ q' < t.size, st.cls q = st.cls q' → cls0 q = cls0 q'

theorem loop_spec {t : MTask} {δ : Nat → Nat → Nat} (hw : t.Wf δ) {R : Nat → Nat → Prop}
    (hRδ : ∀ q < t.size, ∀ q' < t.size, R q q' → ∀ l < t.letters, R (δ q l) (δ q' l)) {cls0 : Nat → Nat} (fuel : Nat) :
    ∀ st, t.MInv δ R cls0 st → st.queue.length + t.letters * (t.size - st.classes) < fuel →
    t.MInv δ R cls0 (t.loop fuel st) ∧ (t.loop fuel st).queue = [] := by
  induction fuel with
  | zero => intro st _ h; omega
  | succ fuel ih =>
    intro st h hfuel
    unfold loop
    cases hq : st.queue with
    | nil => exact ⟨h, hq⟩
    | cons cl rest =>
      obtain ⟨c, l⟩ := cl
      simp only
      set st1 : MState := { st with queue := rest, queued := fun k' l' => if k' = c ∧ l' = l then false else st.queued k' l' }
        with hst1
      have hcl := h.p.queue_lt c l (by rw [hq]; simp)
      -- predecessors of the splitter
      set T : Nat → Prop := fun q => st.cls (δ q l) = c with hTdef
      set L : List Nat := (st1.cstates c).flatMap fun p => t.prev p l with hL
      have hLmem : ∀ q, q ∈ L ↔ q < t.size ∧ T q := by
        intro q
        rw [hL, List.mem_flatMap]
        constructor
        · rintro ⟨p, hp, hqp⟩
          have hp' := (h.p.mem c p).1 hp
          obtain ⟨a, rfl⟩ := (hw.prev p hp'.1 l hcl.2 q).1 hqp
          exact ⟨a, hp'.2⟩
        · rintro ⟨a, b⟩
          have := hw.lt q a l hcl.2
          exact ⟨δ q l, (h.p.mem c _).2 ⟨this, b⟩, (hw.prev _ this l hcl.2 q).2 ⟨a, rfl⟩⟩
      have hLnd : L.Nodup := by
        rw [hL, List.nodup_flatMap]
        refine ⟨fun p _ => hw.prev_nodup p l, ?_⟩
        have hnd := h.p.nodup c
        refine List.Pairwise.imp_of_mem ?_ hnd
        intro a b ha hb hab
        intro q hqa hqb
        have ha' := (h.p.mem c a).1 ha
        have hb' := (h.p.mem c b).1 hb
        have e1 := ((hw.prev a ha'.1 l hcl.2 q).1 hqa).2
        have e2 := ((hw.prev b hb'.1 l hcl.2 q).1 hqb).2
        exact hab (e1.symm.trans e2)
      obtain ⟨m1, m2, m3, m4, m5, m6, m7, m8, m9, m10⟩ := mark_fold (st := st1) h.change h.clean L _ rfl
      set r := L.foldl mark (st1, []) with hr
      obtain ⟨s, sp⟩ := r
      simp only at m1 m2 m3 m4 m5 m6 m7 m8 m9 m10 ⊢
      have hS : t.SInv T s sp := by
        refine ⟨⟨?_, ?_, ?_, ?_, ?_, ?_, ?_, ?_⟩, m9, ?_, ?_, ?_, ?_, ?_⟩
        · rw [m3, m1]; exact h.p.mem
        · rw [m3]; exact h.p.nodup
        · rw [m1, m2]; exact h.p.cls_lt
        · rw [m1, m2]; exact h.p.onto
        · rw [m2]; exact h.p.pos
        · intro k' l'
          rw [m5, m4, hst1]
          simp only
          by_cases hk : k' = c ∧ l' = l
          · rw [if_pos hk]
            obtain ⟨rfl, rfl⟩ := hk
            have := h.p.qnodup
            rw [hq, List.nodup_cons] at this
            simp [this.1]
          · rw [if_neg hk, h.p.queued, hq, List.mem_cons, Prod.mk.injEq]
            tauto
        · intro k' l' hm
          rw [m4] at hm
          rw [m2]
          exact h.p.queue_lt k' l' (by rw [hq]; exact List.mem_cons_of_mem _ hm)
        · rw [m4]
          have := h.p.qnodup
          rw [hq, List.nodup_cons] at this
          exact this.2
        · intro k hk
          rw [m6]
          refine ⟨hLnd.filter _, ?_, ?_⟩
          · intro q
            rw [List.mem_filter, hLmem, m1]
            simp only [decide_eq_true_eq, and_assoc]
          · obtain ⟨q, hq1, hq2⟩ := (m10 k).1 hk
            exact List.ne_nil_of_mem (List.mem_filter.2 ⟨hq1, by simpa using hq2⟩)
        · intro k hk
          rw [m6]
          apply List.filter_eq_nil_iff.2
          intro q hq1 hq2
          exact hk ((m10 k).2 ⟨q, hq1, by simpa using hq2⟩)
        · intro k hk q hq1 q' hq1' e e'
          have no : ∀ x < t.size, s.cls x = k → ¬ T x := by
            intro x hx hxk hTx
            rw [m1] at hxk
            exact hk ((m10 k).2 ⟨x, (hLmem x).2 ⟨hx, hTx⟩, hxk⟩)
          exact ⟨fun ht => absurd ht (no q hq1 e), fun ht => absurd ht (no q' hq1' e')⟩
        · intro k hk
          rw [m2]; exact m8 k hk
        · intro k hk
          obtain ⟨q, hq1, hq2⟩ := (m10 k).1 hk
          rw [m2, ← hq2]
          exact h.p.cls_lt q ((hLmem q).1 hq1).1
      have hJ : t.J δ s fun q q' b => b = l ∧ ¬ (T q ↔ T q') := by
        intro q hq1 q' hq1' e b hb hne
        rw [m1] at e hne ⊢
        rw [m4]
        have key : ∀ x, (st.cls x, b) ∈ st.queue → (st.cls x, b) ∈ rest ∨ (st.cls x = c ∧ b = l) := by
          intro x hx
          rw [hq, List.mem_cons, Prod.mk.injEq] at hx
          tauto
        rcases h.j q hq1 q' hq1' e b hb hne with hm | hm | hm
        · rcases key _ hm with hm | ⟨h1, h2⟩
          · exact .inl hm
          · refine .inr (.inr ⟨h2, ?_⟩)
            subst h2
            intro hiff
            have := hiff.1 h1
            exact hne (h1.trans this.symm)
        · rcases key _ hm with hm | ⟨h1, h2⟩
          · exact .inr (.inl hm)
          · refine .inr (.inr ⟨h2, ?_⟩)
            subst h2
            intro hiff
            have := hiff.2 h1
            exact hne (this.trans h1.symm)
        · exact hm.elim
      have hC : t.Coarse R s := by
        intro q hq1 q' hq1' hr'
        rw [m1]; exact h.coarse q hq1 q' hq1' hr'
      have hT : ∀ q < t.size, ∀ q' < t.size, R q q' → (T q ↔ T q') := by
        intro q hq1 q' hq1' hr'
        have := h.coarse _ (hw.lt q hq1 l hcl.2) _ (hw.lt q' hq1' l hcl.2) (hRδ q hq1 q' hq1' hr' l hcl.2)
        simp only [hTdef, this]
      obtain ⟨a1, a2, a3, a4, a5⟩ := split_fold hw hT sp s hS hJ hC
      apply ih
      · refine ⟨a1.p, fun k => a1.clean k (by simp), fun k => a1.change k (by simp), ?_, a3, ?_⟩
        · intro q hq1 q' hq1' e b hb hne
          rcases a2 q hq1 q' hq1' e b hb hne with hm | hm | ⟨_, hm⟩
          · exact .inl hm
          · exact .inr (.inl hm)
          · exact absurd (a1.uniform _ (by simp) q hq1 q' hq1' rfl e.symm) hm
        · intro q hq1 q' hq1' e
          have := a4 q hq1 q' hq1' e
          rw [m1] at this
          exact h.fine q hq1 q' hq1' this
      · rw [a5, m4, m2]
        rw [hq, List.length_cons] at hfuel
        change rest.length + t.letters * (t.size - st.classes) < fuel
        omega

/-- The result of the algorithm: the coarsest stable refinement of the initial partition. -/
theorem run_spec {t : MTask} {δ : Nat → Nat → Nat} (hw : t.Wf δ) {R : Nat → Nat → Prop}
    (hRδ : ∀ q < t.size, ∀ q' < t.size, R q q' → ∀ l < t.letters, R (δ q l) (δ q' l)) {cls0 : Nat → Nat} {n0 : Nat}
    (hR0 : ∀ q < t.size, ∀ q' < t.size, R q q' → cls0 q = cls0 q')
    (h0 : ∀ q < t.size, cls0 q < n0) (honto : ∀ k < n0, ∃ q < t.size, cls0 q = k) (hpos : 0 < n0) :
    (∀ q < t.size, (t.run cls0 n0).cls q < (t.run cls0 n0).classes) ∧
    (∀ k < (t.run cls0 n0).classes, ∃ q < t.size, (t.run cls0 n0).cls q = k) ∧
    (t.run cls0 n0).classes ≤ t.size ∧
    (∀ q < t.size, ∀ q' < t.size, (t.run cls0 n0).cls q = (t.run cls0 n0).cls q' → cls0 q = cls0 q' ∧
      ∀ l < t.letters, (t.run cls0 n0).cls (δ q l) = (t.run cls0 n0).cls (δ q' l)) ∧
    (∀ q < t.size, ∀ q' < t.size, R q q' → (t.run cls0 n0).cls q = (t.run cls0 n0).cls q') := by
  unfold run
  simp only
  set st : MState :=
    { cls := cls0, classes := n0
      cstates := fun k => (List.range t.size).filter fun q => cls0 q = k
      queue := (List.range n0).flatMap fun k => (List.range t.letters).map fun l => (k, l)
      queued := fun k l => decide (k < n0) && decide (l < t.letters)
      change := fun _ => 0
      removed := fun _ => [] } with hst
  have hqm : ∀ k l, (k, l) ∈ st.queue ↔ k < n0 ∧ l < t.letters := by
    intro k l
    simp [hst]
  have hp : t.PInv st := by
    refine ⟨?_, ?_, h0, honto, hpos, ?_, ?_, ?_⟩
    · intro k q; simp [hst]
    · intro k; exact List.nodup_range.filter _
    · intro k l; rw [hqm]; simp [hst]
    · intro k l hm; exact (hqm k l).1 hm
    · rw [hst]
      simp only
      rw [List.nodup_flatMap]
      refine ⟨fun k _ => List.nodup_range.map (fun a b h => by simpa using h), ?_⟩
      refine List.Pairwise.imp ?_ (List.nodup_range (n := n0))
      intro a b hab x hx hy
      simp only [List.mem_map] at hx hy
      obtain ⟨l, _, rfl⟩ := hx
      obtain ⟨l', _, h'⟩ := hy
      exact hab (by simpa using (congrArg Prod.fst h').symm)
  have hlen : st.queue.length = n0 * t.letters := by
    simp [hst, List.length_flatMap]
  have hle : n0 ≤ t.size := hp.classes_le
  have hm : t.MInv δ R cls0 st := by
    refine ⟨hp, fun _ => rfl, fun _ => hpos, ?_, hR0, fun _ _ _ _ h => h⟩
    intro q hq q' hq' _ b hb _
    exact .inl ((hqm _ _).2 ⟨h0 _ (hw.lt q hq b hb), hb⟩)
  obtain ⟨h1, h2⟩ := loop_spec hw hRδ (t.size * t.letters + 1) st hm (by
    rw [hlen]
    change n0 * t.letters + t.letters * (t.size - n0) < _
    have : t.size = n0 + (t.size - n0) := by omega
    have e : t.size * t.letters = n0 * t.letters + t.letters * (t.size - n0) := by
      conv_lhs => rw [this, Nat.add_mul, Nat.mul_comm (t.size - n0)]
    omega)
  refine ⟨h1.p.cls_lt, h1.p.onto, h1.p.classes_le, ?_, h1.coarse⟩
  intro q hq q' hq' e
  refine ⟨h1.fine q hq q' hq' e, ?_⟩
  intro l hl
  by_contra hne
  have := h1.j q hq q' hq' e l hl hne
  rw [h2] at this
  simp at this

end MTask
end Pire
