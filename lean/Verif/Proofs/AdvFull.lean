import Verif.Proofs.AdvGroups

/-! # One step of `CountingFsmDetermineTask` -/

namespace Pire
namespace Count
namespace Adv

open Spec

variable {A B f : Fsm}

theorem testBit_tagsOf (g : Group) (b : Nat) : (tagsOf g).testBit b = true ↔ ∃ x ∈ g, x.2.testBit b = true := by
  unfold tagsOf
  induction g using Finset.induction_on with
  | empty => simp
  | insert a s ha ih =>
    rw [Finset.fold_insert ha, Nat.testBit_or, Bool.or_eq_true, ih]
    simp

theorem and_two_ne (n : Nat) : n &&& 2 ≠ 0 ↔ n.testBit 1 = true := by
  constructor
  · intro h
    by_contra h1
    refine h (Nat.eq_of_testBit_eq fun i => ?_)
    rw [Nat.testBit_and, Nat.zero_testBit, show (2 : Nat) = 2 ^ 1 from rfl, Nat.testBit_two_pow]
    by_cases hi : 1 = i
    · subst hi
      rw [Bool.eq_false_iff.2 h1]; rfl
    · simp [hi]
  · intro h h1
    have h2 : (n &&& 2).testBit 1 = true := by
      rw [Nat.testBit_and, h]; rfl
    rw [h1] at h2
    cases h2

theorem tag_bit {g : Nat} (h : g = 1 ∨ g = 2 ∨ g = 4) : (g.testBit 1 = true ↔ g = 2) ∧ (g.testBit 0 = true ↔ g = 1) ∧ (g.testBit 2 = true ↔ g = 4) := by
  rcases h with rfl | rfl | rfl <;> decide

/-- The condition in `UpdateLaggingStates`. -/
theorem keep_cond {g : Group} (h : ∀ x ∈ g, x.2 = 1 ∨ x.2 = 2 ∨ x.2 = 4) :
    (tagsOf g &&& 2 ≠ 0 ↔ ∃ x ∈ g, x.2 = 2) ∧ ((∃ x ∈ g, x.2 = 2) → tagsOf g = 2 → ∀ x ∈ g, x.2 = 2) := by
  refine ⟨?_, ?_⟩
  · rw [and_two_ne, testBit_tagsOf]
    exact exists_congr fun x => and_congr_right fun hx => (tag_bit (h x hx)).1
  · intro _ ht x hx
    rcases h x hx with h1 | h1 | h1
    · have : (tagsOf g).testBit 0 = true := (testBit_tagsOf g 0).2 ⟨x, hx, by rw [h1]; rfl⟩
      rw [ht] at this
      cases this
    · exact h1
    · have : (tagsOf g).testBit 2 = true := (testBit_tagsOf g 2).2 ⟨x, hx, by rw [h1]; rfl⟩
      rw [ht] at this
      cases this

theorem keepMatched_some (move : Bool) {s : St} (h0 : s.unmatched = ∅) (ht : ∀ x ∈ s.separated, x.2 = 1 ∨ x.2 = 2 ∨ x.2 = 4)
    (h : ∃ x ∈ s.separated, x.2 = 2) : ∃ l, keepMatched move s = { s with separated := s.separated.filter fun x => x.2 = 2, lagging := l } ∧
      s.lagging ⊆ l ∧ ∀ x ∈ l, x ∈ s.lagging ∨ (x ∈ s.separated ∧ x.2 ≠ 2) := by
  obtain ⟨h1, h2⟩ := keep_cond ht
  unfold keepMatched
  by_cases hc : s.unmatched = ∅ ∧ s.separated ≠ ∅ ∧ tagsOf s.separated &&& 2 ≠ 0 ∧ tagsOf s.separated ≠ 2
  · rw [if_pos hc]
    refine ⟨_, rfl, ?_, ?_⟩
    · split
      · exact Finset.subset_union_left
      · exact Finset.Subset.refl _
    · intro x hx
      split at hx
      · rcases Finset.mem_union.1 hx with hx | hx
        · exact .inl hx
        · obtain ⟨h3, h4⟩ := Finset.mem_filter.1 hx
          exact .inr ⟨h3, h4⟩
      · exact .inl hx
  · rw [if_neg hc]
    have hne : s.separated ≠ ∅ := by rintro he; rw [he] at h; simp at h
    have : tagsOf s.separated = 2 := by
      by_contra h3
      exact hc ⟨h0, hne, h1.2 h, h3⟩
    have hf : s.separated.filter (fun x => x.2 = 2) = s.separated := Finset.filter_true_of_mem (h2 h this)
    rw [hf]
    exact ⟨s.lagging, rfl, Finset.Subset.refl _, fun x hx => .inl hx⟩

theorem keepMatched_none (move : Bool) {s : St} (ht : ∀ x ∈ s.separated, x.2 = 1 ∨ x.2 = 2 ∨ x.2 = 4)
    (h : ¬ ∃ x ∈ s.separated, x.2 = 2) : keepMatched move s = s := by
  unfold keepMatched
  rw [if_neg]
  intro hc
  exact h ((keep_cond ht).1.1 hc.2.2.1)

theorem keepMatched_unmatched (move : Bool) {s : St} (h : s.unmatched ≠ ∅ ∨ s.separated = ∅) : keepMatched move s = s := by
  unfold keepMatched
  rw [if_neg]
  intro hc
  exact h.elim (fun h => h hc.1) (fun h => hc.2.1 h)

/-- `NormalizeState` leaves the state alone if there are unmatched states. -/
theorem normalize_unmatched {s : St} (h0 : s.matched = ∅) (h : s.unmatched ≠ ∅) : normalize s = s := by
  unfold normalize
  simp [h0, h]

theorem normalize_matched {s : St} (h0 : s.matched ≠ ∅) : normalize s = { s with unmatched := s.matched, matched := s.unmatched } := by
  unfold normalize
  simp [h0]

theorem normalize_separated {s : St} (h0 : s.matched = ∅) (h1 : s.unmatched = ∅) (h2 : s.separated ≠ ∅) :
    normalize s = { s with unmatched := s.separated, separated := s.unmatched } := by
  unfold normalize
  simp [h0, h1, h2]

theorem normalize_none {s : St} (h0 : s.matched = ∅) (h1 : s.unmatched = ∅) (h2 : s.separated = ∅) (h3 : s.lagging = ∅) : normalize s = s := by
  unfold normalize
  simp [h0, h1, h2, h3]

theorem normalize_lagging {s : St} (h0 : s.matched = ∅) (h1 : s.unmatched = ∅) (h2 : s.separated = ∅) (h3 : s.lagging ≠ ∅) :
    normalize s =
      if s.lagging.filter (fun x => x.2 = 2) ≠ ∅ then
        ⟨∅, s.lagging.filter fun x => x.2 = 2, s.lagging.filter fun x => x.2 ≠ 2 ∧ x.2 = 4, s.lagging.filter fun x => x.2 ≠ 2 ∧ x.2 ≠ 4⟩
      else if s.lagging.filter (fun x => x.2 ≠ 2 ∧ x.2 = 4) ≠ ∅ then
        ⟨∅, s.lagging.filter fun x => x.2 ≠ 2 ∧ x.2 = 4, ∅, s.lagging.filter fun x => x.2 ≠ 2 ∧ x.2 ≠ 4⟩
      else ⟨∅, s.lagging.filter fun x => x.2 ≠ 2 ∧ x.2 ≠ 4, ∅, s.lagging.filter fun x => x.2 = 2⟩ := by
  obtain ⟨a, b, c, d⟩ := s
  dsimp only at h0 h1 h2 h3
  subst h0 h1 h2
  unfold normalize splitByTag
  simp only [ne_eq, not_true_eq_false, if_false, and_false, true_and, if_pos h3]

/-- The end of a step: nothing is left but lagging states. -/
theorem normalize_lag {t : List Nat} {s : St} (h0 : s.matched = ∅) (h1 : s.unmatched = ∅) (h2 : s.separated = ∅) (h : LagG A B t s.lagging) :
    Inv A B (if ∃ x ∈ s.lagging, x.2 ≠ 1 then 1 else 0) t (normalize s) := by
  by_cases h3 : s.lagging = ∅
  · rw [normalize_none h0 h1 h2 h3]
    have : ¬ ∃ x ∈ s.lagging, x.2 ≠ 1 := by rw [h3]; simp
    rw [if_neg this]
    refine ⟨h0, ?_, ?_, h, .inl rfl⟩
    · rw [h1]; exact .empty
    · rw [h2]; exact .empty
  · rw [normalize_lagging h0 h1 h2 h3]
    have hrest : ∀ x ∈ s.lagging.filter (fun x => x.2 ≠ 2 ∧ x.2 ≠ 4), x.2 = 1 := by
      intro x hx
      obtain ⟨h4, h5, h6⟩ := Finset.mem_filter.1 hx
      have := h.tag h4
      omega
    by_cases h4 : s.lagging.filter (fun x => x.2 = 2) = ∅
    · rw [if_neg (not_not.2 h4)]
      by_cases h5 : s.lagging.filter (fun x => x.2 ≠ 2 ∧ x.2 = 4) = ∅
      · rw [if_neg (not_not.2 h5)]
        have hall : ¬ ∃ x ∈ s.lagging, x.2 ≠ 1 := by
          rintro ⟨x, hx, h6⟩
          rcases h.tag hx with h7 | h7 | h7
          · exact h6 h7
          · exact Finset.notMem_empty x (h4 ▸ Finset.mem_filter.2 ⟨hx, h7⟩)
          · exact Finset.notMem_empty x (h5 ▸ Finset.mem_filter.2 ⟨hx, by omega, h7⟩)
        rw [if_neg hall]
        refine ⟨rfl, fun x hx => ?_, .empty, ?_, .inl rfl⟩
        · exact (h x (Finset.mem_filter.1 hx).1).1 (hrest x hx)
        · dsimp only; rw [h4]; exact .empty
      · rw [if_pos h5]
        obtain ⟨y, hy⟩ := Finset.nonempty_iff_ne_empty.2 h5
        obtain ⟨hy1, hy2, hy3⟩ := Finset.mem_filter.1 hy
        rw [if_pos ⟨y, hy1, by omega⟩]
        refine ⟨rfl, fun x hx => ?_, .empty, h.sub (Finset.filter_subset _ _), .inr h5⟩
        obtain ⟨hx1, hx2, hx3⟩ := Finset.mem_filter.1 hx
        exact (h x hx1).2 (by omega)
    · rw [if_pos h4]
      obtain ⟨y, hy⟩ := Finset.nonempty_iff_ne_empty.2 h4
      obtain ⟨hy1, hy2⟩ := Finset.mem_filter.1 hy
      rw [if_pos ⟨y, hy1, by omega⟩]
      refine ⟨rfl, fun x hx => ?_, fun x hx => ?_, h.sub (Finset.filter_subset _ _), .inr h4⟩
      · obtain ⟨hx1, hx2⟩ := Finset.mem_filter.1 hx
        exact (h x hx1).2 (by omega)
      · obtain ⟨hx1, hx2, hx3⟩ := Finset.mem_filter.1 hx
        exact ⟨fun h => absurd h hx2, fun _ => (h x hx1).2 (by omega)⟩

/-- What `transitionTag` says, by cases. -/
theorem transitionTag_cases (d : St) :
    (d.matched ≠ ∅ → transitionTag d = 1) ∧ (d.matched = ∅ → d.unmatched ≠ ∅ → transitionTag d = 0) ∧
    (d.matched = ∅ → d.unmatched = ∅ → d.separated ≠ ∅ → transitionTag d = if ∃ x ∈ d.separated, x.2 = 2 then 1 else 0) ∧
    (d.matched = ∅ → d.unmatched = ∅ → d.separated = ∅ → transitionTag d = if ∃ x ∈ d.lagging, x.2 ≠ 1 then 3 else 2) := by
  unfold transitionTag
  refine ⟨fun h => by rw [if_pos h], fun h1 h2 => ?_, fun h1 h2 h3 => ?_, fun h1 h2 h3 => ?_⟩
  · rw [if_neg (not_not.2 h1), if_neg h2]
  · rw [if_neg (not_not.2 h1), if_pos h2, if_pos h3]
  · rw [if_neg (not_not.2 h1), if_pos h2, if_neg (not_not.2 h3)]
    split <;> rfl

theorem dedupLagging_lagging (s : St) : (dedupLagging s).lagging ⊆ s.lagging := Finset.filter_subset _ _
theorem dedupSeparated_separated (s : St) : (dedupSeparated s).separated ⊆ s.separated := Finset.filter_subset _ _

theorem rawStates_empty (e : Nat) : rawStates ∅ e = ∅ := rfl

theorem dedupSeparated_free {s : St} (h1 : s.matched = ∅) (h2 : s.unmatched = ∅) : dedupSeparated s = s := by
  obtain ⟨a, b, c, d⟩ := s
  dsimp only at h1 h2
  subst h1 h2
  unfold dedupSeparated
  simp [rawStates_empty]

/-- The duplicates that are removed do not contain the only tagged state. -/
theorem dedupLagging_tagged {s : St} (h1 : s.matched = ∅) (h2 : s.unmatched = ∅) (h3 : s.separated = ∅) :
    (∃ x ∈ (dedupLagging s).lagging, x.2 ≠ 1) ↔ ∃ x ∈ s.lagging, x.2 ≠ 1 := by
  constructor
  · rintro ⟨x, hx, h⟩
    exact ⟨x, dedupLagging_lagging s hx, h⟩
  · rintro ⟨x, hx, h⟩
    refine ⟨x, Finset.mem_filter.2 ⟨hx, ?_, .inl h⟩, h⟩
    rw [h1, h2, h3, rawStates_empty]
    simp

/-- The end of a step. -/
theorem post_spec (move : Bool) {n : Nat} {t : List Nat} {d : St} (h : Prep A B n t d) :
    Inv A B (count n (transitionTag d)) t (normalize (dedupSeparated (dedupLagging (updateLagging move d)))) := by
  obtain ⟨c1, c2, c3, c4⟩ := transitionTag_cases d
  unfold updateLagging
  by_cases h1 : d.matched = ∅
  · have hdrop : dropBehind move d = d := by unfold dropBehind; rw [if_neg (not_not.2 h1)]
    rw [hdrop]
    by_cases h2 : d.unmatched = ∅
    · by_cases h3 : d.separated = ∅
      · -- only lagging states
        rw [c4 h1 h2 h3, keepMatched_unmatched move (.inr h3), dedupSeparated_free (s := dedupLagging d) h1 h2]
        have hi := normalize_lag (A := A) (B := B) (t := t) (s := dedupLagging d) h1 h2 h3 (h.lagging.sub (dedupLagging_lagging d))
        by_cases h4 : ∃ x ∈ d.lagging, x.2 ≠ 1
        · rw [if_pos ((dedupLagging_tagged h1 h2 h3).2 h4)] at hi
          rw [if_pos h4]
          exact hi
        · rw [if_neg (fun h => h4 ((dedupLagging_tagged h1 h2 h3).1 h))] at hi
          rw [if_neg h4]
          exact hi
      · rw [c3 h1 h2 h3]
        by_cases h4 : ∃ x ∈ d.separated, x.2 = 2
        · rw [if_pos h4]
          obtain ⟨l, e, hl, hl2⟩ := keepMatched_some move h2 (fun x hx => h.separated.tag hx) h4
          rw [e]
          have hne : d.separated.filter (fun x => x.2 = 2) ≠ ∅ := by
            obtain ⟨x, hx, hx2⟩ := h4
            exact Finset.ne_empty_of_mem (Finset.mem_filter.2 ⟨hx, hx2⟩)
          rw [dedupSeparated_free (s := dedupLagging { d with separated := d.separated.filter fun x => x.2 = 2, lagging := l }) h1 h2]
          rw [normalize_separated (s := dedupLagging { d with separated := d.separated.filter fun x => x.2 = 2, lagging := l }) h1 h2 hne]
          refine ⟨h1, fun x hx => ?_, ?_, ?_, .inr hne⟩
          · obtain ⟨h5, h6⟩ := Finset.mem_filter.1 hx
            exact (h.separated x h5).1 h6
          · show SepG A B _ t d.unmatched
            rw [h2]; exact .empty
          · refine Two.sub ?_ (dedupLagging_lagging _)
            intro x hx
            rcases hl2 x hx with hx | ⟨hx, -⟩
            · exact h.lagging x hx
            · exact (h.separated.lv x hx).lag
        · rw [if_neg h4, keepMatched_none move (fun x hx => h.separated.tag hx) h4]
          rw [dedupSeparated_free (s := dedupLagging d) h1 h2, normalize_separated (s := dedupLagging d) h1 h2 h3]
          refine ⟨h1, fun x hx => ?_, ?_, ?_, .inr h3⟩
          · exact h.separated.lv x hx
          · show SepG A B _ t d.unmatched
            rw [h2]; exact .empty
          · exact h.lagging.sub (dedupLagging_lagging _)
    · rw [c2 h1 h2, keepMatched_unmatched move (.inl h2), normalize_unmatched (s := dedupSeparated (dedupLagging d)) h1 h2]
      exact ⟨h1, h.unmatched, h.separated.sub (dedupSeparated_separated _), h.lagging.sub (dedupLagging_lagging _), .inr h2⟩
  · rw [c1 h1]
    obtain ⟨l, hl, hdrop⟩ : ∃ l, l ⊆ d.lagging ∪ d.unmatched ∪ d.separated ∧ dropBehind move d = { d with lagging := l, unmatched := ∅, separated := ∅ } := by
      refine ⟨_, ?_, by unfold dropBehind; rw [if_pos h1]⟩
      split
      · exact Finset.Subset.refl _
      · exact fun x hx => Finset.mem_union_left _ (Finset.mem_union_left _ hx)
    rw [hdrop, keepMatched_unmatched move (.inr rfl), normalize_matched
      (s := dedupSeparated (dedupLagging { d with lagging := l, unmatched := ∅, separated := ∅ })) h1]
    refine ⟨rfl, fun x hx => (h.matched x hx).2, ?_, ?_, .inr h1⟩
    · exact Two.empty.sub (dedupSeparated_separated _)
    · exact ((h.lagging.union h.unmatched.lag).union h.separated.lv.lag).sub ((dedupLagging_lagging _).trans hl)

/-- One step of the full task. -/
theorem step_full (S : Shape A B f) {n : Nat} {t : List Nat} {s : St} {c : Nat} (h : Inv A B n t s) (hc : IsLetter c)
    (hv : invalidLetter f (f.letters.representative c) = false) :
    Inv A B (count n ((full f A.initial).action f s (f.letters.representative c))) (t ++ [c])
      ((full f A.initial).next f s (f.letters.representative c)) := by
  have h1 := prepare_full S h hc
  unfold Kind.next Kind.action
  rw [hv, if_neg Bool.false_ne_true, if_neg Bool.false_ne_true]
  generalize (full f A.initial).prepare s (f.letters.representative c) = d at h1 ⊢
  have h2 := post_spec true h1
  exact h2

theorem initial_full (S : Shape A B f) : Inv A B 0 [] (full f A.initial).initial := by
  refine ⟨rfl, ?_, .empty, .empty, .inl rfl⟩
  intro x hx
  rw [Finset.mem_singleton.1 hx]
  exact .inl ⟨S.initial, .inl ⟨rfl, rfl⟩⟩

end Adv
end Count
end Pire
