import Verif.Proofs.AdvCover

/-! # The full task counts exactly when matches and separators have no characters in common -/

namespace Pire
namespace Count
namespace Adv

open Spec Counting

variable {A B f : Fsm}

/-! ### The end of a step, by cases -/

theorem settle_matched {d : St} (h : d.matched ≠ ∅) :
    (settle d).unmatched = d.matched ∧ (settle d).separated = ∅ ∧ ∀ x ∈ (settle d).lagging, x ∈ d.lagging ∨ x ∈ d.unmatched ∨ x ∈ d.separated := by
  have hdrop : dropBehind true d = { d with lagging := d.lagging ∪ d.unmatched ∪ d.separated, unmatched := ∅, separated := ∅ } := by
    unfold dropBehind; rw [if_pos h]; rfl
  unfold settle updateLagging
  rw [hdrop, keepMatched_unmatched true (.inr rfl), normalize_matched
    (s := dedupSeparated (dedupLagging { d with lagging := d.lagging ∪ d.unmatched ∪ d.separated, unmatched := ∅, separated := ∅ })) h]
  refine ⟨rfl, ?_, ?_⟩
  · exact Finset.subset_empty.1 (dedupSeparated_separated (dedupLagging { d with lagging := d.lagging ∪ d.unmatched ∪ d.separated, unmatched := ∅, separated := ∅ }))
  · intro x hx
    have := dedupLagging_lagging { d with lagging := d.lagging ∪ d.unmatched ∪ d.separated, unmatched := ∅, separated := ∅ } hx
    simp only [Finset.mem_union] at this
    tauto

theorem settle_unmatched {d : St} (h1 : d.matched = ∅) (h2 : d.unmatched ≠ ∅) :
    (settle d).unmatched = d.unmatched ∧ (settle d).separated ⊆ d.separated ∧ (settle d).lagging ⊆ d.lagging := by
  have hdrop : dropBehind true d = d := by unfold dropBehind; rw [if_neg (not_not.2 h1)]
  unfold settle updateLagging
  rw [hdrop, keepMatched_unmatched true (.inl h2), normalize_unmatched (s := dedupSeparated (dedupLagging d)) h1 h2]
  exact ⟨rfl, dedupSeparated_separated (dedupLagging d), dedupLagging_lagging d⟩

theorem settle_separated {d : St} (h1 : d.matched = ∅) (h2 : d.unmatched = ∅) {x : Nat × Nat} (h3 : d.separated = {x}) (ht : x.2 = 1 ∨ x.2 = 2 ∨ x.2 = 4) :
    (settle d).unmatched = {x} ∧ (settle d).separated = ∅ ∧ ∀ y ∈ (settle d).lagging, y ∈ d.lagging ∧ y.1 ≠ x.1 := by
  have hdrop : dropBehind true d = d := by unfold dropBehind; rw [if_neg (not_not.2 h1)]
  have hkeep : keepMatched true d = d := by
    unfold keepMatched
    rw [if_neg]
    rintro ⟨-, -, h4, h5⟩
    have ht' : ∀ y ∈ d.separated, y.2 = 1 ∨ y.2 = 2 ∨ y.2 = 4 := fun y hy => by rw [h3, Finset.mem_singleton] at hy; rw [hy]; exact ht
    obtain ⟨y, hy, h6⟩ := (keep_cond ht').1.1 h4
    rw [h3, Finset.mem_singleton] at hy
    subst hy
    apply h5
    rw [h3]
    unfold tagsOf
    rw [Finset.fold_singleton, h6]
    rfl
  unfold settle updateLagging
  rw [hdrop, hkeep, dedupSeparated_free (s := dedupLagging d) h1 h2, normalize_separated (s := dedupLagging d) h1 h2 (by
    show d.separated ≠ ∅
    rw [h3]; simp)]
  refine ⟨h3, h2, fun y hy => ?_⟩
  obtain ⟨h4, h5, -⟩ := Finset.mem_filter.1 hy
  refine ⟨h4, fun h6 => h5 (Finset.mem_union_right _ (mem_rawStates_zero.2 ⟨x, ?_, h6.symm⟩))⟩
  rw [h3]; simp

/-- Only lagging states are left. -/
theorem settle_lagging {d : St} (h1 : d.matched = ∅) (h2 : d.unmatched = ∅) (h3 : d.separated = ∅) :
    (∀ x ∈ (settle d).unmatched, x ∈ d.lagging) ∧
    ((∃ x ∈ d.lagging, x.2 = 2) → (∀ x ∈ (settle d).unmatched, x.2 = 2) ∧ (∀ x ∈ (settle d).separated, x ∈ d.lagging ∧ x.2 = 4) ∧ (∀ x ∈ (settle d).lagging, x ∈ d.lagging ∧ x.2 ≠ 2 ∧ x.2 ≠ 4)) ∧
    ((¬ ∃ x ∈ d.lagging, x.2 = 2) → (∃ x ∈ d.lagging, x.2 = 4) → (∀ x, x ∈ (settle d).unmatched ↔ x ∈ d.lagging ∧ x.2 = 4) ∧ (settle d).separated = ∅ ∧ (∀ x ∈ (settle d).lagging, x ∈ d.lagging ∧ x.2 ≠ 2 ∧ x.2 ≠ 4)) := by
  have hdrop : dropBehind true d = d := by unfold dropBehind; rw [if_neg (not_not.2 h1)]
  unfold settle updateLagging
  rw [hdrop, keepMatched_unmatched true (.inr h3), dedupSeparated_free (s := dedupLagging d) h1 h2]
  have hmem : ∀ x, x ∈ (dedupLagging d).lagging ↔ x ∈ d.lagging ∧ (x.2 ≠ 1 ∨ x.1 ∉ rawStates d.lagging 1) := by
    intro x
    unfold dedupLagging
    rw [h1, h2, h3, rawStates_empty]
    simp
  have e1 : (dedupLagging d).matched = ∅ := h1
  have e2 : (dedupLagging d).unmatched = ∅ := h2
  have e3 : (dedupLagging d).separated = ∅ := h3
  generalize dedupLagging d = d' at hmem e1 e2 e3
  by_cases h6 : d'.lagging = ∅
  · rw [normalize_none e1 e2 e3 h6]
    have none : ∀ x ∈ d.lagging, x.2 = 1 := by
      intro x hx
      by_contra h
      have := (hmem x).2 ⟨hx, .inl h⟩
      rw [h6] at this
      exact absurd this (Finset.notMem_empty x)
    refine ⟨?_, ?_, ?_⟩
    · rw [e2]; intro x hx; exact absurd hx (Finset.notMem_empty x)
    · rintro ⟨x, hx, h⟩; have := none x hx; omega
    · rintro - ⟨x, hx, h⟩; have := none x hx; omega
  · rw [normalize_lagging e1 e2 e3 h6]
    have m2 : d'.lagging.filter (fun x => x.2 = 2) ≠ ∅ ↔ ∃ x ∈ d.lagging, x.2 = 2 := by
      rw [← Finset.nonempty_iff_ne_empty]
      constructor
      · rintro ⟨x, hx⟩
        obtain ⟨g1, g2⟩ := Finset.mem_filter.1 hx
        exact ⟨x, ((hmem x).1 g1).1, g2⟩
      · rintro ⟨x, hx, g⟩
        exact ⟨x, Finset.mem_filter.2 ⟨(hmem x).2 ⟨hx, .inl (by omega)⟩, g⟩⟩
    have m4 : d'.lagging.filter (fun x => x.2 ≠ 2 ∧ x.2 = 4) ≠ ∅ ↔ ∃ x ∈ d.lagging, x.2 = 4 := by
      rw [← Finset.nonempty_iff_ne_empty]
      constructor
      · rintro ⟨x, hx⟩
        obtain ⟨g1, g2⟩ := Finset.mem_filter.1 hx
        exact ⟨x, ((hmem x).1 g1).1, g2.2⟩
      · rintro ⟨x, hx, g⟩
        exact ⟨x, Finset.mem_filter.2 ⟨(hmem x).2 ⟨hx, .inl (by omega)⟩, by omega, g⟩⟩
    by_cases k2 : ∃ x ∈ d.lagging, x.2 = 2
    · rw [if_pos (m2.2 k2)]
      refine ⟨fun x hx => ((hmem x).1 (Finset.mem_filter.1 hx).1).1, fun _ => ⟨fun x hx => (Finset.mem_filter.1 hx).2, fun x hx => ?_, fun x hx => ?_⟩, fun h => absurd k2 h⟩
      · exact ⟨((hmem x).1 (Finset.mem_filter.1 hx).1).1, (Finset.mem_filter.1 hx).2.2⟩
      · exact ⟨((hmem x).1 (Finset.mem_filter.1 hx).1).1, (Finset.mem_filter.1 hx).2⟩
    · rw [if_neg (fun h => k2 (m2.1 h))]
      by_cases k4 : ∃ x ∈ d.lagging, x.2 = 4
      · rw [if_pos (m4.2 k4)]
        refine ⟨fun x hx => ((hmem x).1 (Finset.mem_filter.1 hx).1).1, fun h => absurd h k2, fun _ _ => ⟨fun x => ⟨fun hx => ?_, fun hx => ?_⟩, rfl, fun x hx => ?_⟩⟩
        · exact ⟨((hmem x).1 (Finset.mem_filter.1 hx).1).1, (Finset.mem_filter.1 hx).2.2⟩
        · exact Finset.mem_filter.2 ⟨(hmem x).2 ⟨hx.1, .inl (by omega)⟩, by omega, hx.2⟩
        · exact ⟨((hmem x).1 (Finset.mem_filter.1 hx).1).1, (Finset.mem_filter.1 hx).2⟩
      · rw [if_neg (fun h => k4 (m4.1 h))]
        exact ⟨fun x hx => ((hmem x).1 (Finset.mem_filter.1 hx).1).1, fun h => absurd h k2, fun _ h => absurd h k4⟩

/-! ### Dead ends -/

theorem live_inner (S : Shape A B f) {p : Nat} (hp : p < A.size) (h : p ∉ f.deadStates) : ∃ w, w ∈ A.LangFrom p := by
  have hlt : p < f.size := by rw [S.size]; omega
  have hex : ∃ w, w ∈ f.LangFrom p := by
    by_contra hn
    exact h ((Fsm.mem_deadStates S.wf S.coh p).2 ⟨hlt, .inr hn⟩)
  obtain ⟨w, r, hr, hw⟩ := hex
  clear h hlt
  induction hw with
  | refl q =>
    rcases (S.finals q).1 hr with h | h | h
    · omega
    · exact ⟨[], q, h.2, .refl _⟩
    · omega
  | eps he _ _ => exact absurd he (S.noeps _ _)
  | @step q c q' w r hc he _ ih =>
    have hl : IsLetter c := ⟨(S.wf.edge_lt he).2.1, hc⟩
    rcases (S.edge _ _ _ hl).1 he with h | h | h | h
    · obtain ⟨w', r', hr', hw'⟩ := ih (S.det.1.wf.edge_lt h).2.2 hr
      exact ⟨c :: w', r', hr', .step hc h hw'⟩
    · omega
    · exact ⟨[], q, h.1, .refl _⟩
    · omega

theorem live_sep (S : Shape A B f) {p : Nat} (hp : A.size ≤ p) (hp2 : p < A.size + B.size) (h : p ∉ f.deadStates) : ∃ w, w ∈ B.LangFrom (p - A.size) := by
  have hlt : p < f.size := by rw [S.size]; omega
  have hex : ∃ w, w ∈ f.LangFrom p := by
    by_contra hn
    exact h ((Fsm.mem_deadStates S.wf S.coh p).2 ⟨hlt, .inr hn⟩)
  obtain ⟨w, r, hr, hw⟩ := hex
  clear h hlt
  induction hw with
  | refl q =>
    rcases (S.finals q).1 hr with h | h | h
    · exact ⟨[], _, h.2, .refl _⟩
    · have := S.det.1.wf.fin_lt _ h.2; omega
    · omega
  | eps he _ _ => exact absurd he (S.noeps _ _)
  | @step q c q' w r hc he _ ih =>
    have hl : IsLetter c := ⟨(S.wf.edge_lt he).2.1, hc⟩
    rcases (S.edge _ _ _ hl).1 he with h | ⟨h1, h2, h3⟩ | h | h
    · have := (S.det.1.wf.edge_lt h).1; omega
    · have := (S.det.2.wf.edge_lt h3).2.2
      obtain ⟨w', r', hr', hw'⟩ := ih h2 (by omega) hr
      exact ⟨c :: w', r', hr', .step hc h3 hw'⟩
    · have := S.det.1.wf.fin_lt _ h.1; omega
    · omega

theorem occurs_of_run {F : Fsm} {v : List Nat} {q c p : Nat} (hv : Run F.Edge F.initial v q) (hc : c ≠ 257) (he : F.Edge q c p) (hp : ∃ w, w ∈ F.LangFrom p) : Occurs F.Lang c := by
  obtain ⟨w, r, hr, hw⟩ := hp
  exact ⟨v ++ c :: w, ⟨r, hr, hv.trans (.step hc he hw)⟩, by simp⟩

section Steps

variable (S : Shape A B f) (H : Apart A.Lang B.Lang)
include S H

theorem not_final_init : A.initial ∉ A.finals ∧ B.initial ∉ B.finals :=
  ⟨fun h => H.re ((S.det.1.nil_mem _).2 h), fun h => H.sep ((S.det.2.nil_mem _).2 h)⟩

theorem final_iff (q : Nat) : f.isFinal q = true ↔ A.size ≤ q ∧ q - A.size ∈ B.finals := by
  obtain ⟨h1, h2⟩ := not_final_init S H
  have : f.isFinal q = true ↔ q ∈ f.finals := by simp [Fsm.isFinal]
  rw [this, S.finals]
  tauto

theorem tag_iff (q : Nat) : (f.tag q = 2 ↔ q ∈ A.finals) ∧ (f.tag q = 4 ↔ A.size ≤ q ∧ q < top A B) := by
  obtain ⟨h1, h2⟩ := not_final_init S H
  rw [S.tag]
  unfold top
  by_cases h : q ∈ A.finals
  · have := S.det.1.wf.fin_lt _ h
    rw [if_pos (.inl h)]
    exact ⟨⟨fun _ => h, fun _ => rfl⟩, ⟨fun h => by omega, fun h => by omega⟩⟩
  · simp only [h, h1, and_false, or_false, if_false, iff_false]
    split
    · rename_i h; simp [h]
    · rename_i h; simp [h]

omit H in
/-- Destinations of a state of what is counted. -/
theorem dest_inner {t : List Nat} {x : Nat × Nat} (h : Lvl A B 0 t x) (hx : x.1 < A.size) {c p : Nat} (hc : IsLetter c) (he : f.Edge x.1 c p) (hp : p ∉ f.deadStates) :
    (p < A.size ∧ A.Edge x.1 c p ∧ Occurs A.Lang c) ∨ (x.1 ∈ A.finals ∧ A.size ≤ p ∧ p < top A B ∧ B.Edge B.initial c (p - A.size) ∧ Occurs B.Lang c) := by
  obtain ⟨v, hv⟩ : ∃ v, Run A.Edge A.initial v x.1 := by
    rcases h with ⟨h0, -⟩ | ⟨-, y, v, -, h2, -⟩ | ⟨h0, -⟩
    · unfold top at h0; omega
    · exact ⟨v, h2⟩
    · omega
  rcases (S.edge _ _ _ hc).1 he with h | h | ⟨h1, h2, h3⟩ | h
  · have hlt := (S.det.1.wf.edge_lt h).2.2
    exact .inl ⟨hlt, h, occurs_of_run hv hc.2 h (live_inner S hlt hp)⟩
  · omega
  · have := (S.det.2.wf.edge_lt h3).2.2
    refine .inr ⟨h1, h2, by unfold top; omega, h3, occurs_of_run (.refl _) hc.2 h3 (live_sep S h2 (by omega) hp)⟩
  · omega

omit H in
/-- Destinations of a state of a separator. -/
theorem dest_sep {t : List Nat} {x : Nat × Nat} (h : Lvl A B 0 t x) (hx : A.size ≤ x.1) (hx2 : x.1 < top A B) {c p : Nat} (hc : IsLetter c) (he : f.Edge x.1 c p) (hp : p ∉ f.deadStates) :
    A.size ≤ p ∧ p < top A B ∧ B.Edge (x.1 - A.size) c (p - A.size) ∧ Occurs B.Lang c := by
  obtain ⟨v, hv⟩ : ∃ v, Run B.Edge B.initial v (x.1 - A.size) := by
    rcases h with ⟨h0, -⟩ | ⟨h0, -⟩ | ⟨-, -, -, y, v, -, -, h2⟩
    · omega
    · omega
    · exact ⟨v, h2⟩
  unfold top at *
  rcases (S.edge _ _ _ hc).1 he with h | ⟨h1, h2, h3⟩ | ⟨h1, h2, h3⟩ | h
  · have := (S.det.1.wf.edge_lt h).1; omega
  · have := (S.det.2.wf.edge_lt h3).2.2
    exact ⟨h2, by omega, h3, occurs_of_run hv hc.2 h3 (live_sep S h2 (by omega) hp)⟩
  · have := S.det.1.wf.fin_lt _ h1; omega
  · omega

/-- Destinations of the last state. -/
theorem dest_top {c p : Nat} (hc : IsLetter c) (he : f.Edge (top A B) c p) (hp : p ∉ f.deadStates) :
    p = top A B ∨ (p < A.size ∧ A.Edge A.initial c p ∧ Occurs A.Lang c) := by
  obtain ⟨h1, h2⟩ := not_final_init S H
  unfold top at *
  rcases (S.edge _ _ _ hc).1 he with h | ⟨-, -, h⟩ | h | ⟨-, h | h | h⟩
  · have := (S.det.1.wf.edge_lt h).1; omega
  · have := (S.det.2.wf.edge_lt h).1; omega
  · have := S.det.1.wf.fin_lt _ h.1; omega
  · exact .inl h
  · have hlt := (S.det.1.wf.edge_lt h).2.2
    exact .inr ⟨hlt, h, occurs_of_run (.refl _) hc.2 h (live_inner S hlt hp)⟩
  · exact absurd h.1 h1

/-- Destinations of the first state. -/
theorem dest_init {c p : Nat} (hc : IsLetter c) (he : f.Edge A.initial c p) (hp : p ∉ f.deadStates) : p < A.size ∧ A.Edge A.initial c p ∧ Occurs A.Lang c := by
  obtain ⟨h1, h2⟩ := not_final_init S H
  have hi := S.det.1.wf.init_lt
  rcases (S.edge _ _ _ hc).1 he with h | h | h | h
  · have hlt := (S.det.1.wf.edge_lt h).2.2
    exact ⟨hlt, h, occurs_of_run (.refl _) hc.2 h (live_inner S hlt hp)⟩
  · omega
  · exact absurd h.1 h1
  · omega

end Steps

end Adv
end Count
end Pire
