import Verif.Spec.FsmLang

/-! # Lemmas about paths -/

namespace Pire

variable {E E' : Nat → Nat → Nat → Prop} {q p r : Nat} {u v w : List Nat}

theorem Run.trans (h₁ : Run E q u p) (h₂ : Run E p v r) : Run E q (u ++ v) r := by
  induction h₁ with
  | refl => exact h₂
  | eps e _ ih => exact .eps e (ih h₂)
  | step hc e _ ih => exact .step hc e (ih h₂)

theorem Run.one {c : Nat} (hc : c ≠ 257) (h : E q c p) : Run E q [c] p := .step hc h (.refl _)

theorem Run.oneEps (h : E q 257 p) : Run E q [] p := .eps h (.refl _)

theorem Run.split (h : Run E q (u ++ v) r) : ∃ p, Run E q u p ∧ Run E p v r := by
  generalize hw : u ++ v = w at h
  induction h generalizing u with
  | refl q =>
    obtain ⟨rfl, rfl⟩ := List.append_eq_nil_iff.1 hw
    exact ⟨q, .refl _, .refl _⟩
  | eps e _ ih =>
    obtain ⟨p, h1, h2⟩ := ih hw
    exact ⟨p, .eps e h1, h2⟩
  | @step q c q' w' p' hc e h ih =>
    cases u with
    | nil => exact ⟨q, .refl _, by simp only [List.nil_append] at hw; subst hw; exact .step hc e h⟩
    | cons a u =>
      simp only [List.cons_append, List.cons.injEq] at hw
      obtain ⟨rfl, hw⟩ := hw
      obtain ⟨p, h1, h2⟩ := ih hw
      exact ⟨p, .step hc e h1, h2⟩

/-- Simulation: a relation preserved by edges is preserved by runs. -/
theorem Run.map {R : Nat → Nat → Prop} (h : Run E q w p)
    (step : ∀ a c b a', R a a' → E a c b → ∃ b', R b b' ∧ E' a' c b') :
    ∀ {q'}, R q q' → ∃ p', R p p' ∧ Run E' q' w p' := by
  induction h with
  | refl => exact fun h => ⟨_, h, .refl _⟩
  | eps e _ ih =>
    intro q' hq
    obtain ⟨b', hb, he⟩ := step _ _ _ _ hq e
    obtain ⟨p', hp, hr⟩ := ih hb
    exact ⟨p', hp, .eps he hr⟩
  | step hc e _ ih =>
    intro q' hq
    obtain ⟨b', hb, he⟩ := step _ _ _ _ hq e
    obtain ⟨p', hp, hr⟩ := ih hb
    exact ⟨p', hp, .step hc he hr⟩

theorem Run.mono (h : Run E q w p) (hE : ∀ a c b, E a c b → E' a c b) : Run E' q w p := by
  obtain ⟨p', rfl, h'⟩ := h.map (R := Eq) (E' := E') (by rintro a c b _ rfl e; exact ⟨b, rfl, hE _ _ _ e⟩) rfl
  exact h'

/-- A set closed under edges is closed under runs. -/
theorem Run.closed {S : Nat → Prop} (h : Run E q w p) (hS : ∀ a c b, S a → E a c b → S b) (hq : S q) : S p := by
  induction h with
  | refl => exact hq
  | eps e _ ih => exact ih (hS _ _ _ hq e)
  | step _ e _ ih => exact ih (hS _ _ _ hq e)

/-- Inside a closed set runs only depend on the edges leaving the set's members. -/
theorem Run.mono_on {S : Nat → Prop} (h : Run E q w p) (hq : S q)
    (hE : ∀ a c b, S a → E a c b → E' a c b ∧ S b) : Run E' q w p := by
  induction h with
  | refl => exact .refl _
  | eps e _ ih => exact .eps (hE _ _ _ hq e).1 (ih (hE _ _ _ hq e).2)
  | step hc e _ ih => exact .step hc (hE _ _ _ hq e).1 (ih (hE _ _ _ hq e).2)

/-- A state without outgoing edges. -/
theorem Run.stuck (h : Run E q w p) (hq : ∀ c b, ¬ E q c b) : w = [] ∧ p = q := by
  cases h with
  | refl => exact ⟨rfl, rfl⟩
  | eps e _ => exact absurd e (hq _ _)
  | step _ e _ => exact absurd e (hq _ _)

/-- Letters read along a run are labels of edges. -/
theorem Run.letters {P : Nat → Prop} (h : Run E q w p) (hP : ∀ a c b, E a c b → c ≠ 257 → P c) : ∀ c ∈ w, P c := by
  induction h with
  | refl => simp
  | eps _ _ ih => exact ih
  | step hc e _ ih =>
    intro c hc'
    rcases List.mem_cons.1 hc' with rfl | h
    · exact hP _ _ _ e hc
    · exact ih c h

/-- Last-edge decomposition. -/
theorem Run.snoc_inv (h : Run E q w p) :
    (w = [] ∧ p = q) ∨ (∃ b, Run E q w b ∧ E b 257 p) ∨
    (∃ b c u, c ≠ 257 ∧ w = u ++ [c] ∧ Run E q u b ∧ E b c p) := by
  induction h with
  | refl => exact .inl ⟨rfl, rfl⟩
  | eps e h ih =>
    right
    rcases ih with ⟨rfl, rfl⟩ | ⟨b, hb, he⟩ | ⟨b, c, u, hc, rfl, hb, he⟩
    · exact .inl ⟨_, .refl _, e⟩
    · exact .inl ⟨b, .eps e hb, he⟩
    · exact .inr ⟨b, c, u, hc, rfl, .eps e hb, he⟩
  | @step q c' q' w' p' hc' e h ih =>
    right
    rcases ih with ⟨rfl, rfl⟩ | ⟨b, hb, he⟩ | ⟨b, c, u, hc, rfl, hb, he⟩
    · exact .inr ⟨q, c', [], hc', rfl, .refl _, e⟩
    · exact .inl ⟨b, .step hc' e hb, he⟩
    · exact .inr ⟨b, c, c' :: u, hc, rfl, .step hc' e hb, he⟩

theorem Run.snocEps (h : Run E q w p) (e : E p 257 r) : Run E q w r := by
  simpa using h.trans (Run.oneEps e)

theorem Run.snoc {c : Nat} (h : Run E q w p) (hc : c ≠ 257) (e : E p c r) : Run E q (w ++ [c]) r :=
  h.trans (Run.one hc e)

theorem Run.cons_inv {c : Nat} (h : Run E q (c :: w) p) :
    ∃ q1 q2, Run E q [] q1 ∧ c ≠ 257 ∧ E q1 c q2 ∧ Run E q2 w p := by
  generalize hv : c :: w = v at h
  induction h with
  | refl => cases hv
  | eps e _ ih =>
    obtain ⟨q1, q2, h1, h2, h3, h4⟩ := ih hv
    exact ⟨q1, q2, .eps e h1, h2, h3, h4⟩
  | step hc e h' _ =>
    cases hv
    exact ⟨_, _, .refl _, hc, e, h'⟩

/-- Reversal of a run. -/
theorem Run.reverse (h : Run E q w p) (hE : ∀ a c b, E a c b → E' b c a) : Run E' p w.reverse q := by
  induction h with
  | refl => exact .refl _
  | eps e _ ih => exact ih.snocEps (hE _ _ _ e)
  | step hc e _ ih => simpa using ih.snoc hc (hE _ _ _ e)

end Pire
