import Verif.Proofs.AdvShape
import Verif.Spec.Series

/-! # The counter of an advanced counting scanner never exceeds the length of a series -/

namespace Pire
namespace Count
namespace Adv

open Spec

section Words

variable {re sep : Language Nat}

/-- The word ends with a series of `k` matches. -/
def Ends (re sep : Language Nat) (k : Nat) (x : List Nat) : Prop := ∃ y u, x = y ++ u ∧ Series re sep k u

/-- The word ends with a series of `k` matches and a separator (nothing is asked for if `k` is 0). -/
def Lead (re sep : Language Nat) (k : Nat) (x : List Nat) : Prop := k = 0 ∨ ∃ y s, x = y ++ s ∧ Ends re sep k y ∧ s ∈ sep

theorem Series.pos {k : Nat} {u : List Nat} (h : Series re sep k u) : 1 ≤ k := by cases h <;> omega

theorem Series.tail {k : Nat} {u : List Nat} (h : Series re sep (k + 1) u) (hk : 1 ≤ k) : ∃ y v, u = y ++ v ∧ Series re sep k v := by
  generalize hj : k + 1 = j at h
  induction h generalizing k with
  | one _ => omega
  | @more j u s w h1 h2 h3 ih =>
    obtain rfl : k = j := by omega
    cases k with
    | zero => omega
    | succ k =>
      by_cases hk0 : k = 0
      · subst hk0
        exact ⟨u ++ s, w, rfl, .one h3⟩
      · obtain ⟨y, v, rfl, hv⟩ := ih (k := k) (by omega) rfl
        exact ⟨y, v ++ s ++ w, by simp [List.append_assoc], .more hv h2 h3⟩

theorem Ends.mono {j k : Nat} {x : List Nat} (h : Ends re sep j x) (hk : 1 ≤ k) (hj : k ≤ j) : Ends re sep k x := by
  induction j with
  | zero => omega
  | succ j ih =>
    by_cases he : k = j + 1
    · subst he; exact h
    · obtain ⟨y, u, rfl, hu⟩ := h
      obtain ⟨y', v, rfl, hv⟩ := Series.tail hu (by omega)
      exact ih ⟨y ++ y', v, by simp [List.append_assoc], hv⟩ (by omega)

theorem Lead.mono {j k : Nat} {x : List Nat} (h : Lead re sep j x) (hj : k ≤ j) : Lead re sep k x := by
  by_cases hk : k = 0
  · exact .inl hk
  · rcases h with rfl | ⟨y, s, rfl, h1, h2⟩
    · omega
    · exact .inr ⟨y, s, rfl, h1.mono (by omega) hj, h2⟩

theorem Ends.append {k : Nat} {y x : List Nat} (h : Ends re sep k x) : Ends re sep k (y ++ x) := by
  obtain ⟨z, u, rfl, hu⟩ := h
  exact ⟨y ++ z, u, by simp [List.append_assoc], hu⟩

/-- A match after a separator. -/
theorem Lead.ends {k : Nat} {x v : List Nat} (h : Lead re sep k x) (hv : v ∈ re) : Ends re sep (k + 1) (x ++ v) := by
  rcases h with rfl | ⟨_, s, rfl, ⟨z, u, rfl, hu⟩, hs⟩
  · exact ⟨x, v, rfl, .one hv⟩
  · exact ⟨z, u ++ s ++ v, by simp [List.append_assoc], .more hu hs hv⟩

theorem Ends.has {k : Nat} {x y : List Nat} (h : Ends re sep k x) : HasSeries re sep (x ++ y) k := by
  obtain ⟨z, u, rfl, hu⟩ := h
  exact .inr ⟨u, ⟨z, y, rfl⟩, hu⟩

end Words

section Machine

variable {A B f : Fsm}

/-- The last state is not one of the two automata. -/
abbrev top (A B : Fsm) : Nat := A.size + B.size

/-- What a state with a tag in a group means when the text `t` has been read and `k` matches are taken for granted. -/
def Lvl (A B : Fsm) (k : Nat) (t : List Nat) (x : Nat × Nat) : Prop :=
  (x.1 = top A B ∧ ((x.2 = 1 ∧ k = 0) ∨ (x.2 = 2 ∧ k ≤ 1 ∧ [] ∈ A.Lang))) ∨
  (x.1 < A.size ∧ ∃ y v, t = y ++ v ∧ Run A.Edge A.initial v x.1 ∧
    ((x.2 = 1 ∧ k = 0) ∨ (x.2 = 2 ∧ Lead A.Lang B.Lang (k - 1) y ∧ ∃ v₁ v₂, v = v₁ ++ v₂ ∧ v₁ ∈ A.Lang) ∨
      (x.2 = 4 ∧ Lead A.Lang B.Lang (max k 1) y))) ∨
  (A.size ≤ x.1 ∧ x.1 < top A B ∧ x.2 = 4 ∧ ∃ y v, t = y ++ v ∧ Ends A.Lang B.Lang (max k 1) y ∧ Run B.Edge B.initial v (x.1 - A.size))

theorem Lvl.tag {k : Nat} {t : List Nat} {x : Nat × Nat} (h : Lvl A B k t x) : x.2 = 1 ∨ x.2 = 2 ∨ x.2 = 4 := by
  rcases h with ⟨-, ⟨h, -⟩ | ⟨h, -⟩⟩ | ⟨-, -, -, -, -, ⟨h, -⟩ | ⟨h, -⟩ | ⟨h, -⟩⟩ | ⟨-, -, h, -⟩ <;> omega

theorem Lvl.one {k : Nat} {t : List Nat} {x : Nat × Nat} (h : Lvl A B k t x) (hx : x.2 = 1) : k = 0 := by
  rcases h with ⟨-, ⟨-, h⟩ | ⟨h, -⟩⟩ | ⟨-, -, -, -, -, ⟨-, h⟩ | ⟨h, -⟩ | ⟨h, -⟩⟩ | ⟨-, -, h, -⟩ <;> omega

theorem Lvl.mono {j k : Nat} {t : List Nat} {x : Nat × Nat} (h : Lvl A B j t x) (hk : k ≤ j) : Lvl A B k t x := by
  rcases h with ⟨h0, ⟨h1, h2⟩ | ⟨h1, h2, h3⟩⟩ | ⟨h0, y, v, h1, h2, h3⟩ | ⟨h0, h1, h2, y, v, h3, h4, h5⟩
  · exact .inl ⟨h0, .inl ⟨h1, by omega⟩⟩
  · exact .inl ⟨h0, .inr ⟨h1, by omega, h3⟩⟩
  · refine .inr (.inl ⟨h0, y, v, h1, h2, ?_⟩)
    rcases h3 with ⟨h3, h4⟩ | ⟨h3, h4, h5⟩ | ⟨h3, h4⟩
    · exact .inl ⟨h3, by omega⟩
    · exact .inr (.inl ⟨h3, h4.mono (by omega), h5⟩)
    · exact .inr (.inr ⟨h3, h4.mono (by omega)⟩)
  · exact .inr (.inr ⟨h0, h1, h2, y, v, h3, h4.mono (by omega) (by omega), h5⟩)

theorem Lvl.up {t : List Nat} {x : Nat × Nat} (h : Lvl A B 0 t x) (hx : x.2 ≠ 1) : Lvl A B 1 t x := by
  rcases h with ⟨h0, ⟨h1, h2⟩ | ⟨h1, h2, h3⟩⟩ | ⟨h0, y, v, h1, h2, h3⟩ | ⟨h0, h1, h2, y, v, h3, h4, h5⟩
  · exact absurd h1 hx
  · exact .inl ⟨h0, .inr ⟨h1, le_refl _, h3⟩⟩
  · refine .inr (.inl ⟨h0, y, v, h1, h2, ?_⟩)
    rcases h3 with ⟨h3, h4⟩ | ⟨h3, h4, h5⟩ | ⟨h3, h4⟩
    · exact absurd h3 hx
    · exact .inr (.inl ⟨h3, h4, h5⟩)
    · exact .inr (.inr ⟨h3, h4⟩)
  · exact .inr (.inr ⟨h0, h1, h2, y, v, h3, h4, h5⟩)

/-- From any level to 1 or, for unmatched states, to 0. -/
theorem Lvl.lag {k : Nat} {t : List Nat} {x : Nat × Nat} (h : Lvl A B k t x) : (x.2 = 1 → Lvl A B 0 t x) ∧ (x.2 ≠ 1 → Lvl A B 1 t x) :=
  ⟨fun _ => h.mono (Nat.zero_le _), fun hx => (h.mono (Nat.zero_le _)).up hx⟩

/-- There is such a series in the text. -/
theorem Lvl.has {k : Nat} {t : List Nat} {x : Nat × Nat} (h : Lvl A B k t x) : HasSeries A.Lang B.Lang t k := by
  by_cases hk : k = 0
  · exact .inl hk
  · rcases h with ⟨h0, ⟨h1, h2⟩ | ⟨h1, h2, h3⟩⟩ | ⟨h0, y, v, rfl, h2, h3⟩ | ⟨h0, h1, h2, y, v, rfl, h4, h5⟩
    · exact .inl h2
    · obtain rfl : k = 1 := by omega
      exact .inr ⟨[], List.nil_infix, .one h3⟩
    · rcases h3 with ⟨h3, h4⟩ | ⟨h3, h4, v₁, v₂, rfl, h5⟩ | ⟨h3, h4⟩
      · exact .inl h4
      · have := h4.ends h5
        rw [show k - 1 + 1 = k by omega] at this
        rw [← List.append_assoc]
        exact this.has
      · rcases h4 with h4 | ⟨y, s, rfl, h4, h5⟩
        · omega
        · rw [List.append_assoc]
          exact (h4.mono (by omega) (by omega)).has
    · exact (h4.mono (by omega) (by omega)).has

variable (S : Shape A B f)
include S

theorem init_mem : [] ∈ A.Lang ↔ A.initial ∈ A.finals := S.det.1.nil_mem A.initial

omit S in
theorem lang_of_run {v : List Nat} {q : Nat} (h : Run A.Edge A.initial v q) (hq : q ∈ A.finals) : v ∈ A.Lang := ⟨q, hq, h⟩

/-- At the end of a match. -/
theorem Lvl.ends_of_final {k : Nat} {t : List Nat} {x : Nat × Nat} (h : Lvl A B k t x) (hx : x.1 ∈ A.finals ∨ (x.1 = top A B ∧ A.initial ∈ A.finals)) :
    Ends A.Lang B.Lang (max k 1) t := by
  have hA := S.det.1.wf
  rcases h with ⟨h0, h1⟩ | ⟨h0, y, v, rfl, h2, h3⟩ | ⟨h0, h1, h2, -⟩
  · have hn : [] ∈ A.Lang := by
      rcases hx with hx | hx
      · have := hA.fin_lt _ hx; unfold top at h0; omega
      · exact (init_mem S).2 hx.2
    have hk : max k 1 = 1 := by rcases h1 with h1 | h1 <;> omega
    rw [hk]
    exact ⟨t, [], by simp, .one hn⟩
  · have hx' : x.1 ∈ A.finals := hx.resolve_right fun h => by unfold top at h; omega
    have hv := lang_of_run h2 hx'
    rcases h3 with ⟨h3, rfl⟩ | ⟨h3, h4, -⟩ | ⟨h3, h4⟩
    · exact ⟨y, v, rfl, .one hv⟩
    · exact (h4.ends hv).mono (by omega) (by omega)
    · exact (h4.ends hv).mono (by omega) (by omega)
  · rcases hx with hx | hx
    · have := hA.fin_lt _ hx; omega
    · unfold top at *; omega

/-- After a separator. -/
theorem Lvl.restart {k : Nat} {t : List Nat} {x : Nat × Nat} (h : Lvl A B k t x) (hx : x.1 ∈ f.finals) : Lvl A B k t (A.initial, 4) := by
  have hA := S.det.1.wf
  have hB := S.det.2.wf
  refine .inr (.inl ⟨hA.init_lt, t, [], by simp, .refl _, .inr (.inr ⟨rfl, ?_⟩)⟩)
  have empty : B.initial ∈ B.finals → (x.1 ∈ A.finals ∨ (x.1 = top A B ∧ A.initial ∈ A.finals)) → Lead A.Lang B.Lang (max k 1) t := fun h1 h2 =>
    .inr ⟨t, [], by simp, Lvl.ends_of_final S h h2, (S.det.2.nil_mem B.initial).2 h1⟩
  rcases (S.finals _).1 hx with ⟨h1, h2⟩ | ⟨h1, h2⟩ | ⟨h1, h2, h3⟩
  · have := hB.fin_lt _ h2
    rcases h with ⟨h0, -⟩ | ⟨h0, -⟩ | ⟨_, _, _, y, v, rfl, h4, h5⟩
    · unfold top at h0; omega
    · omega
    · exact .inr ⟨y, v, rfl, h4, _, h2, h5⟩
  · exact empty h1 (.inl h2)
  · exact empty h2 (.inr ⟨h1, h3⟩)

/-- One transition of one state. -/
theorem Lvl.step {k : Nat} {t : List Nat} {q g c p : Nat} (h : Lvl A B k t (q, g)) (hc : IsLetter c) (he : f.Edge q c p) :
    (g ≠ 2 → f.tag p = 2 → Lvl A B (k + 1) (t ++ [c]) (p, 2)) ∧
    (¬ (g ≠ 2 ∧ f.tag p = 2) → (g = 4 ∨ f.tag p = 4) → Lvl A B k (t ++ [c]) (p, 4)) ∧
    (¬ (g ≠ 2 ∧ f.tag p = 2) → ¬ (g = 4 ∨ f.tag p = 4) → Lvl A B k (t ++ [c]) (p, g)) := by
  have hA := S.det.1.wf
  have hB := S.det.2.wf
  have hlt := S.wf.edge_lt he
  rw [S.size] at hlt
  have htag := S.tag p
  have tA : ∀ {p}, p < A.size → f.tag p ≠ 4 ∧ (f.tag p = 2 ↔ p ∈ A.finals) := by
    intro p hp
    rw [S.tag]
    have h1 : ¬ (p = A.size + B.size ∧ A.initial ∈ A.finals) := by omega
    have h2 : ¬ (A.size ≤ p ∧ p < A.size + B.size) := by omega
    simp only [h1, h2, or_false, if_false]
    by_cases h3 : p ∈ A.finals <;> simp [h3]
  have tB : ∀ {p}, A.size ≤ p → p < A.size + B.size → f.tag p = 4 := by
    intro p h1 h2
    rw [S.tag, if_neg, if_pos ⟨h1, h2⟩]
    rintro (h | h)
    · have := hA.fin_lt _ h; omega
    · omega
  have tN : f.tag (A.size + B.size) ≠ 4 ∧ (f.tag (A.size + B.size) = 2 ↔ [] ∈ A.Lang) := by
    rw [S.tag, init_mem S]
    have h1 : ¬ (A.size + B.size ∈ A.finals) := fun h => by have := hA.fin_lt _ h; omega
    simp only [h1, false_or, true_and, lt_irrefl, and_false, if_false]
    by_cases h3 : A.initial ∈ A.finals <;> simp [h3]
  -- to a separator
  have toSep : A.size ≤ p → p < A.size + B.size → Lvl A B k (t ++ [c]) (p, 4) →
      (g ≠ 2 → f.tag p = 2 → Lvl A B (k + 1) (t ++ [c]) (p, 2)) ∧
      (¬ (g ≠ 2 ∧ f.tag p = 2) → (g = 4 ∨ f.tag p = 4) → Lvl A B k (t ++ [c]) (p, 4)) ∧
      (¬ (g ≠ 2 ∧ f.tag p = 2) → ¬ (g = 4 ∨ f.tag p = 4) → Lvl A B k (t ++ [c]) (p, g)) := by
    intro h1 h2 h3
    have := tB h1 h2
    exact ⟨fun _ h => by omega, fun _ _ => h3, fun _ h => absurd (.inr this) h⟩
  have start : (q ∈ A.finals ∨ (q = top A B ∧ A.initial ∈ A.finals)) → A.size ≤ p → B.Edge B.initial c (p - A.size) →
      (g ≠ 2 → f.tag p = 2 → Lvl A B (k + 1) (t ++ [c]) (p, 2)) ∧
      (¬ (g ≠ 2 ∧ f.tag p = 2) → (g = 4 ∨ f.tag p = 4) → Lvl A B k (t ++ [c]) (p, 4)) ∧
      (¬ (g ≠ 2 ∧ f.tag p = 2) → ¬ (g = 4 ∨ f.tag p = 4) → Lvl A B k (t ++ [c]) (p, g)) := by
    intro h1 h2 h3
    have hp := (hB.edge_lt h3).2.2
    refine toSep h2 (by omega) (.inr (.inr ⟨h2, ?_, rfl, t, [c], rfl, Lvl.ends_of_final S h h1, .step hc.2 h3 (.refl _)⟩))
    show p < A.size + B.size
    omega
  rcases (S.edge q c p hc).1 he with h1 | ⟨h1, h2, h3⟩ | ⟨h1, h2, h3⟩ | ⟨h1, h2 | h2 | ⟨h2, h3, h4⟩⟩
  · -- in `A`
    have hqp := hA.edge_lt h1
    obtain ⟨ta, tb⟩ := tA hqp.2.2
    rcases h with ⟨h0, -⟩ | ⟨h0, y, v, rfl, h2, h3⟩ | ⟨h0, -⟩
    · change q = _ at h0; unfold top at h0; omega
    · have hr : Run A.Edge A.initial (v ++ [c]) p := h2.snoc hc.2 h1
      have ht : y ++ v ++ [c] = y ++ (v ++ [c]) := List.append_assoc ..
      dsimp only at h3
      refine ⟨fun hg hf => ?_, fun hn hg => ?_, fun hn hg => ?_⟩
      · have hv := lang_of_run hr (tb.1 hf)
        refine .inr (.inl ⟨hqp.2.2, y, v ++ [c], ht, hr, .inr (.inl ⟨rfl, ?_, v ++ [c], [], by simp, hv⟩)⟩)
        rcases h3 with ⟨h3, rfl⟩ | ⟨h3, -⟩ | ⟨h3, h4⟩
        · exact .inl rfl
        · exact absurd h3 hg
        · exact h4.mono (by omega)
      · have hg4 := hg.resolve_right ta
        refine .inr (.inl ⟨hqp.2.2, y, v ++ [c], ht, hr, .inr (.inr ⟨rfl, ?_⟩)⟩)
        rcases h3 with ⟨h3, -⟩ | ⟨h3, -⟩ | ⟨h3, h4⟩
        · omega
        · omega
        · exact h4
      · refine .inr (.inl ⟨hqp.2.2, y, v ++ [c], ht, hr, ?_⟩)
        rcases h3 with h3 | ⟨h3, h4, v₁, v₂, rfl, h5⟩ | ⟨h3, h4⟩
        · exact .inl h3
        · exact .inr (.inl ⟨h3, h4, v₁, v₂ ++ [c], by simp, h5⟩)
        · exact .inr (.inr ⟨h3, h4⟩)
    · change A.size ≤ q at h0; omega
  · -- in `B`
    have hqp := hB.edge_lt h3
    rcases h with ⟨h0, -⟩ | ⟨h0, -⟩ | ⟨h0, h5, -, y, v, rfl, h6, h7⟩
    · change q = _ at h0; unfold top at h0; omega
    · change q < _ at h0; omega
    · refine toSep h2 (by omega) (.inr (.inr ⟨h2, ?_, rfl, y, v ++ [c], List.append_assoc .., h6, h7.snoc hc.2 h3⟩))
      show p < A.size + B.size
      omega
  · exact start (.inl h1) h2 h3
  · -- the last state
    subst h1 h2
    rcases h with ⟨-, h0⟩ | ⟨h0, -⟩ | ⟨-, h0, -⟩
    · dsimp only at h0
      refine ⟨fun hg hf => ?_, fun hn hg => ?_, fun hn hg => ?_⟩
      · rcases h0 with ⟨-, rfl⟩ | ⟨h0, -⟩
        · exact .inl ⟨rfl, .inr ⟨rfl, le_refl _, tN.2.1 hf⟩⟩
        · exact absurd h0 hg
      · rcases hg with hg | hg
        · omega
        · exact absurd hg tN.1
      · exact .inl ⟨rfl, h0⟩
    · change A.size + B.size < A.size at h0; omega
    · change A.size + B.size < A.size + B.size at h0; omega
  · -- from the last state to `A`
    subst h1
    have hqp := hA.edge_lt h2
    obtain ⟨ta, tb⟩ := tA hqp.2.2
    have hr : Run A.Edge A.initial [c] p := .step hc.2 h2 (.refl _)
    rcases h with ⟨-, h0⟩ | ⟨h0, -⟩ | ⟨-, h0, -⟩
    · dsimp only at h0
      refine ⟨fun hg hf => ?_, fun hn hg => ?_, fun hn hg => ?_⟩
      · rcases h0 with ⟨-, rfl⟩ | ⟨h0, -⟩
        · exact .inr (.inl ⟨hqp.2.2, t, [c], rfl, hr, .inr (.inl ⟨rfl, .inl rfl, [c], [], rfl, lang_of_run hr (tb.1 hf)⟩)⟩)
        · exact absurd h0 hg
      · have hg4 := hg.resolve_right ta
        omega
      · rcases h0 with h0 | ⟨h0, h5, h6⟩
        · exact .inr (.inl ⟨hqp.2.2, t, [c], rfl, hr, .inl h0⟩)
        · exact .inr (.inl ⟨hqp.2.2, t, [c], rfl, hr, .inr (.inl ⟨h0, .inl (by omega), [], [c], rfl, h6⟩)⟩)
    · change A.size + B.size < A.size at h0; omega
    · change A.size + B.size < A.size + B.size at h0; omega
  · exact start (.inr ⟨h1, h2⟩) h3 h4

end Machine

end Adv
end Count
end Pire
