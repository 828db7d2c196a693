import Verif.Proofs.CaptureFresh

/-!
# Surrounded automata
-/

namespace Pire
namespace Capture
open Spec

variable {f : Fsm} {E : Nat → Nat → Nat → Prop} {J : Nat → Nat → List (Nat × Nat)} {F : Nat → Bool}

/-- The edges of a surrounded automaton. -/
def Around (f : Fsm) (E : Nat → Nat → Nat → Prop) : Prop := ∀ q c p, E q c p ↔ f.Edge q c p ∨ (q = f.size ∧ p = f.size ∧ c < 264) ∨ (q = f.size ∧ p = f.initial ∧ c = 257) ∨
  (q = f.size + 1 ∧ p = f.size + 1 ∧ c < 264) ∨ (q ∈ f.finals ∧ p = f.size + 1 ∧ c = 257)

theorem Around.mono (hE : Around f E) : ∀ q c p, f.Edge q c p → E q c p := fun q c p h => (hE q c p).2 (.inl h)

/-- A run through a surrounded automaton from the inside: inside as long as it is not behind a match. -/
theorem Around.split (hE : Around f E) (hw : f.WF) {A : Nat → Nat → Nat} {q r : Nat} {l : List (Nat × Nat)} (h : Steps E A q l r) (hq : q < f.size) :
    (r < f.size ∧ Steps f.Edge A q l r) ∨ (r = f.size + 1 ∧ ∃ l₁ l₂ p, l = l₁ ++ (257, A p (f.size + 1)) :: l₂ ∧ Steps f.Edge A q l₁ p ∧ p ∈ f.finals ∧
      ∀ x ∈ l₂, x.2 = A (f.size + 1) (f.size + 1)) := by
  have stay : ∀ {q r : Nat} {l : List (Nat × Nat)}, Steps E A q l r → q = f.size + 1 → r = f.size + 1 ∧ ∀ x ∈ l, x.2 = A (f.size + 1) (f.size + 1) := by
    intro q r l h
    induction h with
    | nil => exact fun h => ⟨h, by simp⟩
    | @cons q c p l r he _ ih =>
      rintro rfl
      have : p = f.size + 1 := by
        rcases (hE _ _ _).1 he with h | ⟨h, -⟩ | ⟨h, -⟩ | ⟨-, h, -⟩ | ⟨h, -⟩
        · have := (hw.edge_lt h).1; omega
        · omega
        · omega
        · exact h
        · have := hw.fin_lt _ h; omega
      subst this
      obtain ⟨h1, h2⟩ := ih rfl
      refine ⟨h1, fun x hx => ?_⟩
      rcases List.mem_cons.1 hx with rfl | hx
      · rfl
      · exact h2 x hx
  induction h with
  | nil => exact .inl ⟨hq, .nil _⟩
  | @cons q c p l r he hs ih =>
    rcases (hE _ _ _).1 he with h | ⟨h, -⟩ | ⟨h, -⟩ | ⟨h, -⟩ | ⟨h, rfl, rfl⟩
    · rcases ih (hw.edge_lt h).2.2 with ⟨h1, h2⟩ | ⟨h1, l₁, l₂, p', h2, h3, h4⟩
      · exact .inl ⟨h1, .cons h h2⟩
      · exact .inr ⟨h1, (c, A q p) :: l₁, l₂, p', by rw [h2]; rfl, .cons h h3, h4⟩
    · omega
    · omega
    · omega
    · obtain ⟨h1, h2⟩ := stay hs rfl
      exact .inr ⟨h1, [], l, q, rfl, .nil _, h, h2⟩

/-- The state of a run from the inside. -/
theorem Around.inside (hE : Around f E) (hw : f.WF) {q r : Nat} {w : List Nat} (h : Run E q w r) (hq : q < f.size ∨ q = f.size + 1) : r = f.size + 1 ∨ (r < f.size ∧ Run f.Edge q w r) := by
  induction h with
  | refl => exact hq.symm.imp_right fun h => ⟨h, .refl _⟩
  | @eps q p w r he hr ih =>
    rcases (hE _ _ _).1 he with h | ⟨h, -⟩ | ⟨h, -⟩ | ⟨h, h', -⟩ | ⟨h, h', -⟩
    · rcases ih (.inl (hw.edge_lt h).2.2) with h1 | ⟨h1, h2⟩
      · exact .inl h1
      · exact .inr ⟨h1, .eps h h2⟩
    · omega
    · omega
    all_goals
      rcases ih (.inr h') with h1 | ⟨h1, h2⟩
      · exact .inl h1
      · exfalso
        rw [h'] at h2
        cases h2 with
        | refl => omega
        | eps h3 _ => have := (hw.edge_lt h3).1; omega
        | step _ h3 _ => have := (hw.edge_lt h3).1; omega
  | @step q c p w r hc he hr ih =>
    rcases (hE _ _ _).1 he with h | ⟨h, -⟩ | ⟨h, -⟩ | ⟨h, h', -⟩ | ⟨h, h', -⟩
    · rcases ih (.inl (hw.edge_lt h).2.2) with h1 | ⟨h1, h2⟩
      · exact .inl h1
      · exact .inr ⟨h1, .step hc h h2⟩
    · omega
    · omega
    all_goals
      rcases ih (.inr h') with h1 | ⟨h1, h2⟩
      · exact .inl h1
      · exfalso
        rw [h'] at h2
        cases h2 with
        | refl => omega
        | eps h3 _ => have := (hw.edge_lt h3).1; omega
        | step _ h3 _ => have := (hw.edge_lt h3).1; omega

theorem surrounded (hE : Around f E) (hw : f.WF) (ho : OutIn f) (hf : Fresh f) (hJ : Edges (f.size + 2) J E f.output)
    (hF : ∀ q < f.size + 2, F q = true ↔ q = f.size + 1) (h0 : f.initial = 0 ∨ f.Edge f.initial 257 0) (hb : BytesOnly f.Lang) :
    Surrounded (f.size + 2) J F E f.output f.size (f.size + 1) f.initial := by
  have hil := hw.init_lt
  have lt_of : ∀ q c p, E q c p → p < f.size + 2 := by
    intro q c p he
    rcases (hE _ _ _).1 he with h | ⟨-, h, -⟩ | ⟨-, h, -⟩ | ⟨-, h, -⟩ | ⟨-, h, -⟩
    · have := (hw.edge_lt h).2.2; omega
    all_goals omega
  refine ⟨by omega, fun c hc => (hE _ _ _).2 (.inr (.inl ⟨rfl, rfl, hc⟩)), ?_, ?_, fun c hc => (hE _ _ _).2 (.inr (.inr (.inl ⟨rfl, rfl, hc⟩))),
    fun p => ho.zero (by omega), ?_, by omega, fun c hc => (hE _ _ _).2 (.inr (.inr (.inr (.inl ⟨rfl, rfl, hc⟩)))), ?_, ?_, ?_, ?_⟩
  · intro c p hc he
    rcases (hE _ _ _).1 he with h | ⟨-, h, -⟩ | ⟨-, -, h⟩ | ⟨h, -⟩ | ⟨-, -, h⟩
    · have := (hw.edge_lt h).1; omega
    · exact h
    · exact absurd h hc
    · omega
    · exact absurd h hc
  · intro c hc p he
    rcases (hE _ _ _).1 he with h | ⟨-, h, -⟩ | ⟨-, h, -⟩ | ⟨h, -⟩ | ⟨h, -⟩
    · have := (hw.edge_lt h).1; omega
    · exact .inl h
    · exact .inr h
    · omega
    · have := hw.fin_lt _ h; omega
  · intro q c he
    rcases (hE _ _ _).1 he with h | ⟨h, -⟩ | ⟨h, -⟩ | ⟨-, h, -⟩ | ⟨-, h, -⟩
    · have := (hw.edge_lt h).2.2; omega
    · exact h
    · exact h
    · omega
    · omega
  · intro c hc p he
    have hr : Run f.Edge f.initial [] 0 := by
      rcases h0 with h | h
      · rw [h]; exact .refl _
      · exact .eps h (.refl _)
    rcases (hE _ _ _).1 he with h | ⟨h, -⟩ | ⟨h, -⟩ | ⟨h, -⟩ | ⟨-, -, h⟩
    · exact (hf.edge 0 hr c p h).1 hc
    · omega
    · omega
    · omega
    · omega
  · intro q hr c hc p he
    rcases hE.inside hw hr (.inl hil) with h | ⟨h, hr'⟩
    · rw [ho.zero (by omega)]; exact not_endsGreedy_zero
    · rcases (hE _ _ _).1 he with h1 | ⟨h1, -⟩ | ⟨h1, -⟩ | ⟨h1, -⟩ | ⟨-, h1, -⟩
      · exact (hf.edge q hr' c p h1).2 hc
      · omega
      · omega
      · omega
      · rw [ho.zero (by omega)]; exact not_endsGreedy_zero
  · intro u q hu hr hm
    rcases hE.inside hw hr (.inl hil) with h | ⟨h, hr'⟩
    · exact h
    · exfalso
      have hq : q < f.size + 2 := by omega
      rcases hm with hm | ⟨tr, htr, hm⟩
      · have := (hF q hq).1 hm; omega
      · obtain ⟨he, -⟩ := (hJ.mem q hq 259 (by omega) tr).1 htr
        have htl := lt_of _ _ _ he
        rcases (hE _ _ _).1 he with h1 | ⟨h1, -⟩ | ⟨h1, -⟩ | ⟨h1, -⟩ | ⟨-, -, h1⟩
        · have hl := (hw.edge_lt h1).2.2
          rcases hm with hm | ⟨tr2, htr2, hm⟩
          · have := (hF _ htl).1 hm; omega
          · obtain ⟨he2, -⟩ := (hJ.mem _ htl 257 (by omega) tr2).1 htr2
            have := (hF _ (lt_of _ _ _ he2)).1 hm
            rcases (hE _ _ _).1 he2 with h2 | ⟨h2, -⟩ | ⟨h2, -⟩ | ⟨h2, -⟩ | ⟨h2, -⟩
            · have := (hw.edge_lt h2).2.2; omega
            · omega
            · omega
            · omega
            · have hmem : u ++ [259] ∈ f.Lang := ⟨_, h2, hr'.trans (.step (by omega) h1 (.refl _))⟩
              have := hb _ hmem 259 (by simp)
              omega
        · omega
        · omega
        · omega
        · omega
  · rintro (hm | ⟨tr, htr, hm⟩)
    · have := (hF f.size (by omega)).1 hm; omega
    · obtain ⟨he, -⟩ := (hJ.mem f.size (by omega) 259 (by omega) tr).1 htr
      have htr1 : tr.1 = f.size := by
        rcases (hE _ _ _).1 he with h | ⟨-, h, -⟩ | ⟨-, -, h⟩ | ⟨h, -⟩ | ⟨-, -, h⟩
        · have := (hw.edge_lt h).1; omega
        · exact h
        · omega
        · omega
        · omega
      rw [htr1] at hm
      rcases hm with hm | ⟨tr2, htr2, hm⟩
      · have := (hF f.size (by omega)).1 hm; omega
      · obtain ⟨he2, -⟩ := (hJ.mem f.size (by omega) 257 (by omega) tr2).1 htr2
        have := (hF _ (lt_of _ _ _ he2)).1 hm
        rcases (hE _ _ _).1 he2 with h2 | ⟨-, h2, -⟩ | ⟨-, h2, -⟩ | ⟨h2, -⟩ | ⟨h2, -⟩
        · have := (hw.edge_lt h2).1; omega
        · omega
        · omega
        · omega
        · have := hw.fin_lt _ h2; omega

end Capture
end Pire
