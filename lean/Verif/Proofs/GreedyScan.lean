import Verif.Spec.Greedy
import Mathlib.Data.Nat.Find
import Mathlib.Data.List.Infix
import Mathlib.Tactic.Common

/-!
# Greedy scanning: places where matches may begin
-/

namespace Pire
namespace Greedy
open Spec
open Classical

variable {L : Language Nat}

/-- The length of the longest nonempty beginning of `w` in `L`, 0 if there is none. -/
noncomputable def lng (L : Language Nat) (w : List Nat) : Nat := Nat.findGreatest (fun n => 0 < n ∧ w.take n ∈ L) w.length

/-- Some nonempty beginning belongs to `L`. -/
def Hit (L : Language Nat) (w : List Nat) : Prop := ∃ n, 0 < n ∧ n ≤ w.length ∧ w.take n ∈ L

theorem lng_le (w : List Nat) : lng L w ≤ w.length := Nat.findGreatest_le _

theorem lng_ne_zero {w : List Nat} : lng L w ≠ 0 ↔ Hit L w := by
  unfold lng
  constructor
  · intro h
    have := Nat.findGreatest_of_ne_zero (P := fun n => 0 < n ∧ w.take n ∈ L) rfl h
    exact ⟨_, this.1, Nat.findGreatest_le _, this.2⟩
  · rintro ⟨n, h0, hn, h⟩ e
    rw [Nat.findGreatest_eq_zero_iff] at e
    exact e h0 hn ⟨h0, h⟩

theorem lng_mem {w : List Nat} (h : lng L w ≠ 0) : w.take (lng L w) ∈ L :=
  (Nat.findGreatest_of_ne_zero (P := fun n => 0 < n ∧ w.take n ∈ L) rfl h).2

theorem lng_greatest {w : List Nat} {n : Nat} (h0 : 0 < n) (hn : n ≤ w.length) (h : w.take n ∈ L) : n ≤ lng L w :=
  Nat.le_findGreatest hn ⟨h0, h⟩

theorem hit_nil : ¬ Hit L [] := by
  rintro ⟨n, h0, hn, _⟩
  simp at hn; omega

theorem hit_snoc {w : List Nat} {c : Nat} : Hit L (w ++ [c]) ↔ Hit L w ∨ w ++ [c] ∈ L := by
  constructor
  · rintro ⟨n, h0, hn, h⟩
    rcases Nat.lt_or_ge w.length n with h1 | h1
    · right
      have : n = (w ++ [c]).length := by simp at hn ⊢; omega
      rw [this, List.take_length] at h
      exact h
    · left
      rw [List.take_append_of_le_length h1] at h
      exact ⟨n, h0, h1, h⟩
  · rintro (⟨n, h0, hn, h⟩ | h)
    · exact ⟨n, h0, by simp; omega, by rwa [List.take_append_of_le_length hn]⟩
    · exact ⟨(w ++ [c]).length, by simp, Nat.le_refl _, by rwa [List.take_length]⟩

theorem lng_snoc_mem {w : List Nat} {c : Nat} (h : w ++ [c] ∈ L) : lng L (w ++ [c]) = (w ++ [c]).length :=
  Nat.le_antisymm (lng_le _) (lng_greatest (by simp) (Nat.le_refl _) (by rwa [List.take_length]))

theorem lng_snoc_not_mem {w : List Nat} {c : Nat} (h : w ++ [c] ∉ L) : lng L (w ++ [c]) = lng L w := by
  have hle : lng L (w ++ [c]) ≤ w.length := by
    by_contra hx
    have h1 := lng_le (L := L) (w ++ [c])
    have h2 := lng_mem (L := L) (w := w ++ [c]) (by omega)
    have : lng L (w ++ [c]) = (w ++ [c]).length := by simp at h1 ⊢; omega
    rw [this, List.take_length] at h2
    exact h h2
  apply Nat.le_antisymm
  · rcases Nat.eq_zero_or_pos (lng L (w ++ [c])) with h0 | h0
    · omega
    · have := lng_mem (L := L) (w := w ++ [c]) (by omega)
      rw [List.take_append_of_le_length hle] at this
      exact lng_greatest h0 hle this
  · rcases Nat.eq_zero_or_pos (lng L w) with h0 | h0
    · omega
    · have := lng_mem (L := L) (w := w) (by omega)
      have hl := lng_le (L := L) w
      exact lng_greatest h0 (by simp; omega) (by rwa [List.take_append_of_le_length hl])

/-- How far the scan goes in one step. -/
noncomputable def stepLen (L : Language Nat) (w : List Nat) : Nat := if lng L w = 0 then 1 else lng L w

theorem stepLen_pos (w : List Nat) : 0 < stepLen L w := by unfold stepLen; split <;> omega

theorem stepLen_le {w : List Nat} (h : w ≠ []) : stepLen L w ≤ w.length := by
  have := lng_le (L := L) w
  have : 0 < w.length := List.length_pos_iff.2 h
  unfold stepLen; split <;> omega

/-- What is left of the text at the places where the scan looks for matches, the end of the text included. -/
noncomputable def starts (L : Language Nat) (w : List Nat) : List (List Nat) :=
  if w = [] then [[]]
  else w :: starts L (w.drop (stepLen L w))
termination_by w.length
decreasing_by
  have := stepLen_pos (L := L) w
  have : 0 < w.length := List.length_pos_iff.2 (by assumption)
  simp; omega

theorem starts_nil : starts L [] = [[]] := by rw [starts]; simp

theorem starts_ne {w : List Nat} (h : w ≠ []) : starts L w = w :: starts L (w.drop (stepLen L w)) := by
  rw [starts]; simp [h]

/-- The number of matches the scan finds. -/
noncomputable def tokens (L : Language Nat) (w : List Nat) : Nat := (starts L w).countP fun x => decide (Hit L x)

theorem tokens_nil : tokens L [] = 0 := by
  unfold tokens
  rw [starts_nil]
  simp [hit_nil]

theorem tokens_ne {w : List Nat} (h : w ≠ []) :
    tokens L w = (if Hit L w then 1 else 0) + tokens L (w.drop (stepLen L w)) := by
  unfold tokens
  rw [starts_ne h, List.countP_cons]
  simp only [decide_eq_true_eq]
  omega

theorem noMatch_iff {w : List Nat} : NoMatch L w ↔ ¬ Hit L w := by
  constructor
  · rintro h ⟨n, h0, hn, hm⟩
    refine h _ ?_ (List.take_prefix _ _) hm
    intro e
    have := congrArg List.length e
    rw [List.length_take, List.length_nil] at this
    omega
  · intro h u hu hp hm
    refine h ⟨u.length, List.length_pos_iff.2 hu, hp.length_le, ?_⟩
    rwa [← List.prefix_iff_eq_take.1 hp]

theorem longestMatch_iff {w u : List Nat} : LongestMatch L w u ↔ Hit L w ∧ u = w.take (lng L w) := by
  constructor
  · rintro ⟨h0, hp, hm, hl⟩
    have hpos := List.length_pos_iff.2 h0
    have hu := List.prefix_iff_eq_take.1 hp
    have hit : Hit L w := ⟨u.length, hpos, hp.length_le, by rwa [← hu]⟩
    refine ⟨hit, ?_⟩
    have hn := lng_ne_zero.2 hit
    have h1 := lng_greatest hpos hp.length_le (by rwa [← hu] : w.take u.length ∈ L)
    have h2 := hl _ (List.take_prefix _ _) (lng_mem hn)
    rw [List.length_take, Nat.min_eq_left (lng_le w)] at h2
    rw [Nat.le_antisymm h2 h1]
    exact hu
  · rintro ⟨hit, rfl⟩
    have hn := lng_ne_zero.2 hit
    have hl := lng_le (L := L) w
    refine ⟨?_, List.take_prefix _ _, lng_mem hn, fun u' hp hm => ?_⟩
    · intro e; have := congrArg List.length e; simp at this
      rcases this with h | h
      · exact hn h
      · subst h; exact hit_nil hit
    · rw [List.length_take, Nat.min_eq_left hl]
      by_cases h0 : u' = []
      · subst h0; exact Nat.zero_le _
      · exact lng_greatest (List.length_pos_iff.2 h0) hp.length_le (by rwa [← List.prefix_iff_eq_take.1 hp])

theorem stepLen_of_hit {w : List Nat} (h : Hit L w) : stepLen L w = lng L w := if_neg (lng_ne_zero.2 h)
theorem stepLen_of_not {w : List Nat} (h : ¬ Hit L w) : stepLen L w = 1 := if_pos (by by_contra hx; exact h (lng_ne_zero.1 hx))

theorem greedy_tokens (w : List Nat) : GreedyMatches L w (tokens L w) := by
  induction hn : w.length using Nat.strong_induction_on generalizing w with
  | _ n ih =>
    by_cases h : w = []
    · subst h; rw [tokens_nil]; exact .done
    · rw [tokens_ne h]
      have hs := stepLen_pos (L := L) w
      have hw : 0 < w.length := List.length_pos_iff.2 h
      have hr := ih _ (by rw [List.length_drop]; omega) (w.drop (stepLen L w)) rfl
      by_cases hit : Hit L w
      · rw [if_pos hit, Nat.add_comm]
        rw [stepLen_of_hit hit] at hr ⊢
        have := GreedyMatches.take (L := L) (u := w.take (lng L w)) (v := w.drop (lng L w))
          (by rw [List.take_append_drop]; exact longestMatch_iff.2 ⟨hit, rfl⟩) hr
        rwa [List.take_append_drop] at this
      · rw [if_neg hit, Nat.zero_add]
        rw [stepLen_of_not hit] at hr ⊢
        obtain ⟨c, w', rfl⟩ := List.exists_cons_of_ne_nil h
        exact .skip (noMatch_iff.2 hit) hr

theorem greedy_unique {w : List Nat} {k : Nat} (h : GreedyMatches L w k) : k = tokens L w := by
  induction h with
  | done => exact tokens_nil.symm
  | @skip c w k hn _ ih =>
    have hit := noMatch_iff.1 hn
    rw [tokens_ne (by simp), if_neg hit, stepLen_of_not hit, Nat.zero_add]
    exact ih
  | @take u v k hl _ ih =>
    obtain ⟨hit, hu⟩ := longestMatch_iff.1 hl
    have hne : u ++ v ≠ [] := fun e => hit_nil (e ▸ hit)
    have hlen : u.length = lng L (u ++ v) := by
      have := congrArg List.length hu
      rwa [List.length_take, Nat.min_eq_left (lng_le _)] at this
    rw [tokens_ne hne, if_pos hit, stepLen_of_hit hit, ← hlen, List.drop_left, ← ih, Nat.add_comm]

theorem greedy_iff {w : List Nat} {k : Nat} : GreedyMatches L w k ↔ k = tokens L w :=
  ⟨greedy_unique, fun h => h ▸ greedy_tokens w⟩

/-- The number of matches behind the first place. -/
noncomputable def later (L : Language Nat) (x : List Nat) : Nat := tokens L x - if Hit L x then 1 else 0

theorem later_eq {x : List Nat} : later L x + (if Hit L x then 1 else 0) = tokens L x := by
  unfold later
  split
  · rename_i h
    have hne : x ≠ [] := fun e => hit_nil (e ▸ h)
    have := tokens_ne (L := L) hne
    rw [if_pos h] at this
    omega
  · rfl

theorem laterMatches_iff {x : List Nat} {j : Nat} : LaterMatches L x j ↔ j = later L x := by
  unfold LaterMatches
  by_cases hit : Hit L x
  · have hne : x ≠ [] := fun e => hit_nil (e ▸ hit)
    have e1 := tokens_ne (L := L) hne
    rw [if_pos hit, stepLen_of_hit hit] at e1
    have e2 := later_eq (L := L) (x := x)
    rw [if_pos hit] at e2
    constructor
    · rintro (⟨u, v, hx, hl, hg⟩ | ⟨hn, _⟩)
      · obtain ⟨_, hu⟩ := longestMatch_iff.1 hl
        have hlen : u.length = lng L x := by
          have := congrArg List.length hu
          rwa [List.length_take, Nat.min_eq_left (lng_le _)] at this
        have hv : v = x.drop (lng L x) := by rw [← hlen, hx, List.drop_left]
        rw [greedy_iff.1 hg, hv]
        omega
      · exact absurd hit (noMatch_iff.1 hn)
    · intro hj
      refine Or.inl ⟨x.take (lng L x), x.drop (lng L x), (List.take_append_drop _ _).symm, longestMatch_iff.2 ⟨hit, rfl⟩, greedy_iff.2 ?_⟩
      omega
  · have e2 := later_eq (L := L) (x := x)
    rw [if_neg hit] at e2
    have e3 : tokens L x = tokens L x.tail := by
      by_cases hne : x = []
      · subst hne; rfl
      · rw [tokens_ne hne, if_neg hit, stepLen_of_not hit, Nat.zero_add, List.drop_one]
    constructor
    · rintro (⟨u, v, hx, hl, hg⟩ | ⟨_, hg⟩)
      · exact absurd (longestMatch_iff.1 hl).1 hit
      · rw [greedy_iff.1 hg]; omega
    · intro hj
      exact Or.inr ⟨noMatch_iff.2 hit, greedy_iff.2 (by omega)⟩

/-! ### One more character -/

/-- The places after one more character, `xs` being the old ones with that character appended. -/
noncomputable def cutAt (L : Language Nat) : List (List Nat) → List (List Nat)
  | [] => [[]]
  | x :: xs => if x ∈ L then [x, []] else x :: cutAt L xs

theorem starts_snoc (w : List Nat) (c : Nat) : starts L (w ++ [c]) = cutAt L ((starts L w).map (· ++ [c])) := by
  induction hn : w.length using Nat.strong_induction_on generalizing w with
  | _ n ih =>
    by_cases h : w = []
    · subst h
      rw [starts_nil, starts_ne (by simp)]
      have : ([] ++ [c]).drop (stepLen L ([] ++ [c])) = [] := by
        have := stepLen_pos (L := L) ([] ++ [c])
        rw [List.drop_eq_nil_iff]; simp at this ⊢; omega
      rw [this, starts_nil]
      simp only [List.map_cons, List.map_nil, cutAt]
      split <;> rfl
    · have hne : w ++ [c] ≠ [] := by simp
      rw [starts_ne hne, starts_ne h, List.map_cons, cutAt]
      split
      · rename_i hm
        have : stepLen L (w ++ [c]) = (w ++ [c]).length := by
          rw [stepLen, lng_snoc_mem hm, if_neg (by simp)]
        rw [this, List.drop_length, starts_nil]
      · rename_i hm
        have hs : stepLen L (w ++ [c]) = stepLen L w := by unfold stepLen; rw [lng_snoc_not_mem hm]
        have hle := stepLen_le (L := L) h
        have hpos := stepLen_pos (L := L) w
        rw [hs, List.drop_append_of_le_length hle, ih _ (by rw [List.length_drop]; omega) _ rfl]

/-- The places are what is left of the text at increasing positions. -/
theorem starts_suffix {w x : List Nat} (h : x ∈ starts L w) : x <:+ w := by
  induction hn : w.length using Nat.strong_induction_on generalizing w with
  | _ n ih =>
    by_cases hw : w = []
    · subst hw; rw [starts_nil, List.mem_singleton] at h; subst h; exact List.suffix_rfl
    · rw [starts_ne hw, List.mem_cons] at h
      rcases h with rfl | h
      · exact List.suffix_rfl
      · have hpos := stepLen_pos (L := L) w
        have hw' : 0 < w.length := List.length_pos_iff.2 hw
        exact (ih _ (by rw [List.length_drop]; omega) h rfl).trans (List.drop_suffix _ _)

theorem starts_pairwise (w : List Nat) : (starts L w).Pairwise fun x y => y.length < x.length := by
  induction hn : w.length using Nat.strong_induction_on generalizing w with
  | _ n ih =>
    by_cases hw : w = []
    · subst hw; rw [starts_nil]; simp
    · have hpos := stepLen_pos (L := L) w
      have hw' : 0 < w.length := List.length_pos_iff.2 hw
      rw [starts_ne hw, List.pairwise_cons]
      refine ⟨fun y hy => ?_, ih _ (by rw [List.length_drop]; omega) _ rfl⟩
      have := (starts_suffix hy).length_le
      rw [List.length_drop] at this
      omega

theorem nil_mem_starts (w : List Nat) : [] ∈ starts L w := by
  induction hn : w.length using Nat.strong_induction_on generalizing w with
  | _ n ih =>
    by_cases hw : w = []
    · subst hw; rw [starts_nil]; simp
    · have hpos := stepLen_pos (L := L) w
      have hw' : 0 < w.length := List.length_pos_iff.2 hw
      rw [starts_ne hw]
      exact List.mem_cons_of_mem _ (ih _ (by rw [List.length_drop]; omega) _ rfl)

theorem starts_split {w x : List Nat} (h : x ∈ starts L w) : ∃ pre, starts L w = pre ++ starts L x ∧ ∀ y ∈ pre, x.length < y.length := by
  induction hn : w.length using Nat.strong_induction_on generalizing w with
  | _ n ih =>
    by_cases hw : w = []
    · subst hw; rw [starts_nil, List.mem_singleton] at h; subst h; exact ⟨[], rfl, by simp⟩
    · have hpos := stepLen_pos (L := L) w
      have hw' : 0 < w.length := List.length_pos_iff.2 hw
      have h' := h
      rw [starts_ne hw, List.mem_cons] at h
      rcases h with rfl | h
      · exact ⟨[], rfl, by simp⟩
      · obtain ⟨pre, e, hp⟩ := ih _ (by rw [List.length_drop]; omega) h rfl
        refine ⟨w :: pre, by rw [starts_ne hw, e]; rfl, fun y hy => ?_⟩
        rcases List.mem_cons.1 hy with rfl | hy
        · have := (starts_suffix h).length_le
          rw [List.length_drop] at this
          omega
        · exact hp y hy

/-- The number of matches that begin at `x` or before. -/
noncomputable def upTo (L : Language Nat) (w x : List Nat) : Nat := (starts L w).countP fun y => decide (Hit L y ∧ x.length ≤ y.length)

theorem head_starts (x : List Nat) : ∃ t, starts L x = x :: t ∧ ∀ y ∈ t, y.length < x.length := by
  have hp := starts_pairwise (L := L) x
  by_cases h : x = []
  · subst h; rw [starts_nil]; exact ⟨[], rfl, by simp⟩
  · rw [starts_ne h] at hp ⊢
    exact ⟨_, rfl, (List.pairwise_cons.1 hp).1⟩

theorem upTo_later {w x : List Nat} (h : x ∈ starts L w) : upTo L w x + later L x = tokens L w := by
  obtain ⟨pre, e, hp⟩ := starts_split h
  obtain ⟨t, et, ht⟩ := head_starts (L := L) x
  have h1 : upTo L w x = pre.countP (fun y => decide (Hit L y)) + if Hit L x then 1 else 0 := by
    unfold upTo
    rw [e, et, List.countP_append, List.countP_cons]
    have a1 : pre.countP (fun y => decide (Hit L y ∧ x.length ≤ y.length)) = pre.countP (fun y => decide (Hit L y)) :=
      List.countP_congr fun y hy => by
        have := hp y hy
        simp only [decide_eq_true_eq]
        exact ⟨fun h => h.1, fun h => ⟨h, by omega⟩⟩
    have a2 : t.countP (fun y => decide (Hit L y ∧ x.length ≤ y.length)) = 0 := by
      rw [List.countP_eq_zero]
      intro y hy
      have := ht y hy
      simp only [decide_eq_true_eq]
      rintro ⟨_, h⟩; omega
    rw [a1, a2]
    simp
  have h2 : tokens L w = pre.countP (fun y => decide (Hit L y)) + tokens L x := by
    unfold tokens
    rw [e, List.countP_append]
  rw [h1, h2, ← later_eq (L := L) (x := x)]
  omega

theorem upTo_nil (w : List Nat) : upTo L w [] = tokens L w := by
  have := upTo_later (nil_mem_starts (L := L) w)
  have h0 : later L [] = 0 := by unfold later; rw [tokens_nil]; simp
  omega

end Greedy
end Pire
