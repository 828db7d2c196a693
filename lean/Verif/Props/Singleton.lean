import Verif.Model.Singleton
import Mathlib.Data.Finset.Card
import Mathlib.Data.Finset.Insert

/-!
# C74: the tables of the library and threads
-/

namespace Pire.Props

open Pire.Once

/-- What holds in the middle of any execution; `M` are the threads that have made an object. -/
structure Going (s : Sys) (M : Finset Nat) : Prop where
  count : s.made = M.card
  made : ∀ i ∈ M, (∃ a, s.place i = .store a) ∨ (s.p ≠ none ∧ s.place i ≠ .make)
  stored : ∀ i a, s.place i = .store a → a < s.made
  fetch : ∀ i, s.place i = .fetch → s.p ≠ none
  p : ∀ a, s.p = some a → a < s.made
  results : ∀ x ∈ s.results, ∃ a, x.2 = some a ∧ a < s.made

theorem going_start : Going Sys.start ∅ :=
  ⟨rfl, by simp, fun i a h => (by cases h), fun i h => (by cases h), fun a h => (by cases h), by simp [Sys.start]⟩

theorem going_step {s : Sys} {M : Finset Nat} (h : Going s M) (i : Nat) : ∃ M', Going (s.step i) M' ∧ M' ⊆ insert i M ∧ (s.p ≠ none → (s.step i).p ≠ none) := by
  obtain ⟨h1, h2, h3, h4, h5, h6⟩ := h
  unfold Sys.step
  cases hp : s.place i with
  | out =>
    refine ⟨M, ⟨h1, ?_, ?_, ?_, h5, h6⟩, Finset.subset_insert _ _, id⟩
    · intro j hj
      by_cases e : j = i
      · subst e
        rcases h2 j hj with ⟨a, h⟩ | h
        · rw [hp] at h; cases h
        · exact .inr ⟨h.1, by simp⟩
      · simpa [e] using h2 j hj
    · intro j a h
      by_cases e : j = i
      · subst e; simp at h
      · exact h3 j a (by simpa [e] using h)
    · intro j h
      by_cases e : j = i
      · subst e; simp at h
      · exact h4 j (by simpa [e] using h)
  | test =>
    refine ⟨M, ⟨h1, ?_, ?_, ?_, h5, h6⟩, Finset.subset_insert _ _, id⟩
    · intro j hj
      by_cases e : j = i
      · subst e
        rcases h2 j hj with ⟨a, h⟩ | h
        · rw [hp] at h; cases h
        · exact .inr ⟨h.1, by simp [h.1]⟩
      · simpa [e] using h2 j hj
    · intro j a h
      by_cases e : j = i
      · subst e
        simp only [Function.update_self] at h
        split at h <;> cases h
      · exact h3 j a (by simpa [e] using h)
    · intro j h
      by_cases e : j = i
      · subst e
        simp only [Function.update_self] at h
        split at h
        · cases h
        · assumption
      · exact h4 j (by simpa [e] using h)
  | make =>
    have hi : i ∉ M := by
      intro hi
      rcases h2 i hi with ⟨a, h⟩ | h
      · rw [hp] at h; cases h
      · exact h.2 hp
    refine ⟨insert i M, ⟨?_, ?_, ?_, ?_, ?_, ?_⟩, Finset.Subset.refl _, id⟩
    · rw [Finset.card_insert_of_notMem hi, ← h1]
    · intro j hj
      by_cases e : j = i
      · subst e; exact .inl ⟨s.made, by simp⟩
      · simpa [e] using h2 j ((Finset.mem_insert.1 hj).resolve_left e)
    · intro j a h
      by_cases e : j = i
      · subst e
        have : s.made = a := by simpa using h
        show a < s.made + 1
        omega
      · have := h3 j a (by simpa [e] using h)
        show a < s.made + 1
        omega
    · intro j h
      by_cases e : j = i
      · subst e; simp at h
      · exact h4 j (by simpa [e] using h)
    · intro a h
      have := h5 a h
      show a < s.made + 1
      omega
    · intro x hx
      obtain ⟨a, ha, h⟩ := h6 x hx
      exact ⟨a, ha, Nat.lt_succ_of_lt h⟩
  | store a =>
    refine ⟨M, ⟨h1, ?_, ?_, by simp, ?_, h6⟩, Finset.subset_insert _ _, by simp⟩
    · intro j hj
      by_cases e : j = i
      · subst e; exact .inr ⟨by simp, by simp⟩
      · rcases h2 j hj with ⟨b, h⟩ | h
        · exact .inl ⟨b, by simpa [e] using h⟩
        · exact .inr ⟨by simp, by simpa [e] using h.2⟩
    · intro j b h
      by_cases e : j = i
      · subst e; simp at h
      · exact h3 j b (by simpa [e] using h)
    · intro b h
      have : a = b := by simpa using h
      exact this ▸ h3 i a hp
  | fetch =>
    refine ⟨M, ⟨h1, ?_, ?_, ?_, h5, ?_⟩, Finset.subset_insert _ _, id⟩
    · intro j hj
      by_cases e : j = i
      · subst e; exact .inr ⟨h4 j hp, by simp⟩
      · simpa [e] using h2 j hj
    · intro j a h
      by_cases e : j = i
      · subst e; simp at h
      · exact h3 j a (by simpa [e] using h)
    · intro j h
      by_cases e : j = i
      · subst e; simp at h
      · exact h4 j (by simpa [e] using h)
    · intro x hx
      rcases List.mem_cons.1 hx with rfl | hx
      · obtain ⟨a, ha⟩ := Option.ne_none_iff_exists'.1 (h4 i hp)
        exact ⟨a, ha, h5 a ha⟩
      · exact h6 x hx

theorem going_run {s : Sys} {M : Finset Nat} (h : Going s M) (l : List Nat) : ∃ M', Going (s.run l) M' ∧ M' ⊆ M ∪ l.toFinset := by
  induction l generalizing s M with
  | nil => exact ⟨M, h, by simp⟩
  | cons i l ih =>
    obtain ⟨M1, h1, hs, -⟩ := going_step h i
    obtain ⟨M2, h2, hs2⟩ := ih h1
    refine ⟨M2, h2, fun j hj => ?_⟩
    have := hs2 hj
    simp only [Finset.mem_union, List.mem_toFinset, List.toFinset_cons, Finset.mem_insert] at this ⊢
    rcases this with h | h
    · rcases Finset.mem_insert.1 (hs h) with h | h
      · exact .inr (.inl h)
      · exact .inl h
    · exact .inr (.inr h)

/-- Whatever the threads do in whatever order, no call returns a null pointer: each returns an object that has been made before; no more objects are made than there are threads,
however often they call. (This is about executions one access at a time. If there is a data race, C++ does not even promise that.) -/
theorem C74_any_schedule (schedule : List Nat) :
    (∀ i x, (i, x) ∈ (Sys.start.run schedule).results → ∃ a, x = some a ∧ a < (Sys.start.run schedule).made) ∧ (Sys.start.run schedule).made ≤ schedule.toFinset.card := by
  obtain ⟨M, h, hM⟩ := going_run going_start schedule
  refine ⟨fun i x hx => h.results _ hx, ?_⟩
  rw [h.count]
  exact Finset.card_le_card (by simpa using hM)

/-- The object has been made: nobody makes another one. -/
structure Settled (s : Sys) (a : Nat) : Prop where
  p : s.p = some a
  made : s.made = 1
  places : ∀ i, s.place i = .out ∨ s.place i = .test ∨ s.place i = .fetch
  results : ∀ x ∈ s.results, x.2 = some a

theorem Settled.step {s : Sys} {a : Nat} (h : Settled s a) (i : Nat) : Settled (s.step i) a := by
  obtain ⟨h1, h2, h3, h4⟩ := h
  have hu : ∀ x, (x = Where.out ∨ x = .test ∨ x = .fetch) → ∀ j, Function.update s.place i x j = .out ∨ Function.update s.place i x j = .test ∨ Function.update s.place i x j = .fetch := by
    intro x hx j
    by_cases e : j = i
    · subst e; simpa using hx
    · simpa [e] using h3 j
  unfold Sys.step
  rcases h3 i with h | h | h <;> rw [h]
  · exact ⟨h1, h2, hu _ (by simp), h4⟩
  · exact ⟨h1, h2, hu _ (by simp [h1]), h4⟩
  · refine ⟨h1, h2, hu _ (by simp), ?_⟩
    intro x hx
    rcases List.mem_cons.1 hx with rfl | hx
    · exact h1
    · exact h4 x hx

theorem Settled.run {s : Sys} {a : Nat} (h : Settled s a) (l : List Nat) : Settled (s.run l) a := by
  induction l generalizing s with
  | nil => exact h
  | cons i l ih => exact ih (h.step i)

theorem Settled.no_race {s : Sys} {a : Nat} (h : Settled s a) : ¬ s.Race := by
  rintro ⟨i, j, b, -, hi, -⟩
  rcases h.places i with e | e | e <;> rw [e] at hi <;> cases hi

theorem no_race_of_one {s : Sys} {i : Nat} (h : ∀ j, j ≠ i → s.place j = .out) : ¬ s.Race := by
  rintro ⟨a, b, c, hab, ha, hb⟩
  have ha' : a = i := by by_contra e; rw [h a e] at ha; cases ha
  have hb' : b = i := by by_contra e; rw [h b e] at hb; cases hb
  exact hab (ha'.trans hb'.symm)

theorem first_steps (i : Nat) (k : Nat) : ∀ j, j ≠ i → (Sys.start.run (List.replicate k i)).place j = .out := by
  have : ∀ (k : Nat) (s : Sys), (∀ j, j ≠ i → s.place j = .out) → ∀ j, j ≠ i → (s.run (List.replicate k i)).place j = .out := by
    intro k
    induction k with
    | zero => intro s h; exact h
    | succ k ih =>
      intro s h
      refine ih (s.step i) fun j e => ?_
      unfold Sys.step
      split <;> simpa [e] using h j e
  exact this k _ fun _ _ => rfl

theorem first_call (i : Nat) : Settled (Sys.start.run (List.replicate 5 i)) 0 := by
  have e : Sys.start.run (List.replicate 5 i) = ⟨some 0, 1, Function.update (Function.update (Function.update (Function.update (Function.update (fun _ => Where.out) i .test) i .make) i (.store 0)) i .fetch) i .out,
      [(i, some 0)]⟩ := by
    simp [Sys.run, Sys.step, Sys.start, List.replicate]
  rw [e]
  refine ⟨rfl, rfl, fun j => ?_, by simp⟩
  by_cases e : j = i
  · subst e; simp
  · simp [e]

/-- If the first call ends (it takes five steps) before another one begins, then from then on any number of threads may call at the same time: there is never a data race, only
one object is ever made, and all calls return it. -/
theorem C74_after_the_first_call (i : Nat) (schedule : List Nat) :
    (∀ before, before <+: List.replicate 5 i ++ schedule → ¬ (Sys.start.run before).Race) ∧ (Sys.start.run (List.replicate 5 i ++ schedule)).made = 1 ∧
    ∀ j x, (j, x) ∈ (Sys.start.run (List.replicate 5 i ++ schedule)).results → x = some 0 := by
  have hr : ∀ l, Sys.start.run (List.replicate 5 i ++ l) = (Sys.start.run (List.replicate 5 i)).run l := fun l => List.foldl_append
  refine ⟨fun b hb => ?_, ?_, ?_⟩
  · obtain ⟨t, ht⟩ := hb
    rcases List.append_eq_append_iff.1 ht with ⟨u, e, -⟩ | ⟨u, e, -⟩
    · have : b = List.replicate b.length i := by
        rw [List.eq_replicate_iff]
        exact ⟨rfl, fun c hc => List.eq_of_mem_replicate (e ▸ List.mem_append_left u hc)⟩
      rw [this]
      exact no_race_of_one (first_steps i _)
    · rw [e, hr]
      exact ((first_call i).run _).no_race
  · rw [hr]; exact ((first_call i).run _).made
  · intro j x hx
    rw [hr] at hx
    exact ((first_call i).run _).results _ hx

/-- Two first calls at the same time: thread 0 is about to write `p` while thread 1 is about to write it, too; each of them makes an object. The one made first gets lost when the
other one is stored, and the calls return different objects. -/
theorem C74_first_calls_race :
    (Sys.start.run [0, 0, 1, 1, 0, 1]).Race ∧ (Sys.start.run [0, 0, 1, 1, 0, 1, 0, 0, 1, 1]).results = [(1, some 1), (0, some 0)] ∧
    (Sys.start.run [0, 0, 1, 1, 0, 1, 0, 0, 1, 1]).made = 2 ∧ (Sys.start.run [0, 0, 1, 1, 0, 1, 0, 0, 1, 1]).p = some 1 :=
  ⟨⟨0, 1, 0, by decide, by decide, by decide⟩, by decide, by decide, by decide⟩

theorem all_call {s : Sys} {l : List Nat} (hl : l.Nodup) (h : ∀ i ∈ l, s.place i = .out) :
    s.run l = { s with place := fun i => if i ∈ l then .test else s.place i } := by
  induction l generalizing s with
  | nil => simp [Sys.run]
  | cons i l ih =>
    obtain ⟨hi, hl⟩ := List.nodup_cons.1 hl
    have e : s.step i = { s with place := Function.update s.place i .test } := by unfold Sys.step; rw [h i (by simp)]
    show (s.step i).run l = _
    rw [e, ih hl fun j hj => (Function.update_of_ne (by rintro rfl; exact hi hj) _ _).trans (h j (by simp [hj]))]
    simp only [Sys.mk.injEq, true_and, and_true]
    funext j
    by_cases e : j = i
    · subst e; simp [hi]
    · simp [e]

theorem all_test {s : Sys} {l : List Nat} (hl : l.Nodup) (h : ∀ i ∈ l, s.place i = .test) (hp : s.p = none) :
    s.run l = { s with place := fun i => if i ∈ l then .make else s.place i } := by
  induction l generalizing s with
  | nil => simp [Sys.run]
  | cons i l ih =>
    obtain ⟨hi, hl⟩ := List.nodup_cons.1 hl
    have e : s.step i = { s with place := Function.update s.place i .make } := by unfold Sys.step; rw [h i (by simp)]; simp [hp]
    show (s.step i).run l = _
    rw [e, ih (s := { s with place := Function.update s.place i .make }) hl (fun j hj => (Function.update_of_ne (by rintro rfl; exact hi hj) _ _).trans (h j (by simp [hj]))) hp]
    simp only [Sys.mk.injEq, true_and, and_true]
    funext j
    by_cases e : j = i
    · subst e; simp [hi]
    · simp [e]

theorem all_make {s : Sys} {l : List Nat} (hl : l.Nodup) (h : ∀ i ∈ l, s.place i = .make) : (s.run l).made = s.made + l.length := by
  induction l generalizing s with
  | nil => rfl
  | cons i l ih =>
    obtain ⟨hi, hl⟩ := List.nodup_cons.1 hl
    have e : s.step i = { s with made := s.made + 1, place := Function.update s.place i (.store s.made) } := by unfold Sys.step; rw [h i (by simp)]
    show ((s.step i).run l).made = _
    rw [e, ih hl fun j hj => (Function.update_of_ne (by rintro rfl; exact hi hj) _ _).trans (h j (by simp [hj]))]
    simp only [List.length_cons]
    omega

/-- The bound of `C74_any_schedule` is reached: any number of threads whose first calls overlap may each make an object. -/
theorem C74_each_may_make_one (n : Nat) : (Sys.start.run (List.range n ++ List.range n ++ List.range n)).made = n ∧ (List.range n ++ List.range n ++ List.range n).toFinset.card = n := by
  have hr : ∀ (s : Sys) l m, s.run (l ++ m) = (s.run l).run m := fun _ _ _ => List.foldl_append
  constructor
  · have e1 := all_call (s := Sys.start) (List.nodup_range (n := n)) fun _ _ => rfl
    have e2 := all_test (s := Sys.start.run (List.range n)) (List.nodup_range (n := n)) (fun i hi => by rw [e1]; exact if_pos hi) (by rw [e1]; rfl)
    have e3 := all_make (s := (Sys.start.run (List.range n)).run (List.range n)) (List.nodup_range (n := n)) (fun i hi => by rw [e2]; exact if_pos hi)
    rw [hr, hr, e3, e2, e1, List.length_range]
    exact Nat.zero_add n
  · simp [List.toFinset_card_of_nodup List.nodup_range]

/-- Even if the second call begins when the object of the first has been made, there is a data race. -/
theorem C74_reader_races : (Sys.start.run [0, 0, 0, 1]).Race := ⟨0, 1, 0, by decide, by decide, by decide⟩

/-- Three threads after the first call. -/
theorem C74_case : (Sys.start.run (List.replicate 5 0 ++ [1, 2, 0, 1, 0, 2, 2, 1, 0])).results = [(0, some 0), (1, some 0), (2, some 0), (0, some 0)] := by decide

end Pire.Props
