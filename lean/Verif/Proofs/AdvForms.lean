import Verif.Proofs.AdvExact

/-! # The states of the full task when matches and separators have no characters in common -/

namespace Pire
namespace Count
namespace Adv

open Spec Counting

variable {A B f : Fsm}

/-- Only states of what is counted, not after a separator. -/
def Low (A B : Fsm) (g : Group) : Prop := ∀ x ∈ g, (x.2 = 1 ∨ x.2 = 2) ∧ (x.1 < A.size ∨ (x.1 = top A B ∧ x.2 = 1))

theorem Low.union {g h : Group} (hg : Low A B g) (hh : Low A B h) : Low A B (g ∪ h) := fun x hx => (Finset.mem_union.1 hx).elim (hg x) (hh x)

/-- The states that occur. -/
inductive Form (A B : Fsm) (n : Nat) (s : St) : Prop
  /-- nothing counted -/
  | zero : n = 0 → Form A B n s
  /-- in a match -/
  | inMatch : 1 ≤ n → s.separated = ∅ → (∀ x ∈ s.unmatched, x.2 = 2 ∧ x.1 < A.size) → Low A B s.lagging → Form A B n s
  /-- after a separator, before the next match -/
  | lead (q : Nat) : 1 ≤ n → s.separated = ∅ → q < A.size → s.unmatched = {(q, 4)} → Low A B s.lagging → Form A B n s
  /-- in a separator -/
  | sep (d : Nat) : 1 ≤ n → s.separated = ∅ → A.size ≤ d → d < top A B → s.unmatched = {(d, 4)} → (∀ x ∈ s.lagging, x = (top A B, 1)) → Form A B n s

section Steps

variable (S : Shape A B f) (H : Apart A.Lang B.Lang)
include S H

theorem low_not_final {x : Nat × Nat} (h : x.1 < A.size ∨ x.1 = top A B) : f.isFinal x.1 = false := by
  rw [Bool.eq_false_iff]
  intro hf
  obtain ⟨h1, h2⟩ := (final_iff S H x.1).1 hf
  have := S.det.2.wf.fin_lt _ h2
  unfold top at h
  omega

theorem splitOne_low {c : Nat} {x : Nat × Nat} (h : x.1 < A.size ∨ x.1 = top A B) :
    splitOne f A.initial c x = tagged f (f.destinations x.1 c) x.2 := by
  unfold splitOne
  rw [low_not_final S H h]
  rfl

/-- One state, on a character that does not occur in separators. -/
theorem one_other {t : List Nat} {x : Nat × Nat} (hl : Lvl A B 0 t x) (hx : (x.2 = 1 ∨ x.2 = 2) ∧ (x.1 < A.size ∨ (x.1 = top A B ∧ x.2 = 1)))
    {c : Nat} (hc : IsLetter c) (hn : ¬ Occurs B.Lang c) :
    (∀ y ∈ (splitOne f A.initial (f.letters.representative c) x).matched, y.2 = 2 ∧ y.1 < A.size ∧ x.2 = 1) ∧
    (∀ y ∈ (splitOne f A.initial (f.letters.representative c) x).unmatched, y.2 = x.2 ∧ (y.1 < A.size ∨ (y.1 = top A B ∧ x.1 = top A B))) ∧
    (splitOne f A.initial (f.letters.representative c) x).separated = ∅ := by
  have hx1 : x.1 < A.size ∨ x.1 = top A B := hx.2.imp id And.left
  rw [splitOne_low S H hx1]
  have key : ∀ p, p ∈ f.destinations x.1 (f.letters.representative c) → p ∉ f.deadStates → p < A.size ∨ (p = top A B ∧ x.1 = top A B) := by
    intro p hp hd
    have he := (mem_destinations S hc).1 hp
    rcases hx1 with h | h
    · rcases dest_inner S hl h hc he hd with h1 | h1
      · exact .inl h1.1
      · exact absurd h1.2.2.2.2 hn
    · rw [h] at he
      rcases dest_top S H hc he hd with h1 | h1
      · exact .inr ⟨h1, h⟩
      · exact .inl h1.1
  refine ⟨fun y hy => ?_, fun y hy => ?_, ?_⟩
  · obtain ⟨h1, h2, h3, h4, h5⟩ := mem_tagged.1.1 hy
    refine ⟨h5, ?_, by omega⟩
    exact S.det.1.wf.fin_lt _ ((tag_iff S H _).1.1 h4)
  · obtain ⟨h1, h2, h3, h4, h5⟩ := mem_tagged.2.2.1 hy
    exact ⟨h5, key _ h1 h2⟩
  · apply Finset.eq_empty_of_forall_notMem
    intro y hy
    obtain ⟨h1, h2, h3, h4, h5⟩ := mem_tagged.2.1.1 hy
    rcases h4 with h4 | h4
    · omega
    · have h6 := (tag_iff S H _).2.1 h4
      rcases key _ h1 h2 with h | h
      · omega
      · omega

/-- One state, on a character that occurs in separators. -/
theorem one_sep {t : List Nat} {x : Nat × Nat} (hl : Lvl A B 0 t x) (hx : x.1 < A.size ∨ (x.1 = top A B ∧ x.2 = 1))
    {c : Nat} (hc : IsLetter c) (hn : Occurs B.Lang c) :
    (splitOne f A.initial (f.letters.representative c) x).matched = ∅ ∧
    (∀ y ∈ (splitOne f A.initial (f.letters.representative c) x).unmatched, y = (top A B, 1) ∧ x.1 = top A B) ∧
    (∀ y ∈ (splitOne f A.initial (f.letters.representative c) x).separated, x.1 ∈ A.finals ∧ y.2 = 4 ∧ A.size ≤ y.1 ∧ y.1 < top A B ∧ B.Edge B.initial c (y.1 - A.size)) := by
  have hx1 : x.1 < A.size ∨ x.1 = top A B := hx.imp id And.left
  have hna : ¬ Occurs A.Lang c := fun h => H.apart c h hn
  rw [splitOne_low S H hx1]
  have key : ∀ p, p ∈ f.destinations x.1 (f.letters.representative c) → p ∉ f.deadStates → (p = top A B ∧ x.1 = top A B ∧ x.2 = 1) ∨
      (x.1 ∈ A.finals ∧ A.size ≤ p ∧ p < top A B ∧ B.Edge B.initial c (p - A.size)) := by
    intro p hp hd
    have he := (mem_destinations S hc).1 hp
    rcases hx with h | h
    · rcases dest_inner S hl h hc he hd with h1 | h1
      · exact absurd h1.2.2 hna
      · exact .inr ⟨h1.1, h1.2.1, h1.2.2.1, h1.2.2.2.1⟩
    · rw [h.1] at he
      rcases dest_top S H hc he hd with h1 | h1
      · exact .inl ⟨h1, h.1, h.2⟩
      · exact absurd h1.2.2 hna
  refine ⟨?_, fun y hy => ?_, fun y hy => ?_⟩
  · apply Finset.eq_empty_of_forall_notMem
    intro y hy
    obtain ⟨h1, h2, h3, h4, h5⟩ := mem_tagged.1.1 hy
    have h6 := S.det.1.wf.fin_lt _ ((tag_iff S H _).1.1 h4)
    unfold top at key
    rcases key _ h1 h2 with h | h <;> omega
  · obtain ⟨h1, h2, h3, h4, h5⟩ := mem_tagged.2.2.1 hy
    rcases key _ h1 h2 with h | h
    · exact ⟨Prod.ext h.1 (h5.trans h.2.2), h.2.1⟩
    · exact absurd (.inr ((tag_iff S H _).2.2 ⟨h.2.1, h.2.2.1⟩)) h4
  · obtain ⟨h1, h2, h3, h4, h5⟩ := mem_tagged.2.1.1 hy
    rcases key _ h1 h2 with h | h
    · exfalso
      rcases h4 with h4 | h4
      · omega
      · have := (tag_iff S H _).2.1 h4; omega
    · exact ⟨h.1, h5, h.2.1, h.2.2.1, h.2.2.2⟩

/-- Lagging states, on a character that does not occur in separators. -/
theorem low_other {t : List Nat} {g : Group} (hl : ∀ x ∈ g, Lvl A B 0 t x) (hg : Low A B g) {c : Nat} (hc : IsLetter c) (hn : ¬ Occurs B.Lang c) :
    Low A B (split f A.initial (f.letters.representative c) g).all := by
  intro y hy
  obtain ⟨x, hx, hy⟩ := split_all.1 hy
  obtain ⟨h1, h2, h3⟩ := one_other S H (hl x hx) (hg x hx) hc hn
  rcases mem_all.1 hy with hy | hy | hy
  · obtain ⟨h4, h5, -⟩ := h1 y hy
    exact ⟨.inr h4, .inl h5⟩
  · obtain ⟨h4, h5⟩ := h2 y hy
    refine ⟨by rw [h4]; exact (hg x hx).1, h5.imp id fun h5 => ⟨h5.1, ?_⟩⟩
    rw [h4]
    rcases (hg x hx).2 with h6 | h6
    · unfold top at h5; omega
    · exact h6.2
  · rw [h3] at hy; exact absurd hy (Finset.notMem_empty y)

/-- Lagging states, on a character that occurs in separators. -/
theorem low_sep {t : List Nat} {g : Group} (hl : ∀ x ∈ g, Lvl A B 0 t x) (hg : Low A B g) {c : Nat} (hc : IsLetter c) (hn : Occurs B.Lang c) :
    ∀ y ∈ (split f A.initial (f.letters.representative c) g).all, y = (top A B, 1) ∨
      (y.2 = 4 ∧ A.size ≤ y.1 ∧ y.1 < top A B ∧ B.Edge B.initial c (y.1 - A.size)) := by
  intro y hy
  obtain ⟨x, hx, hy⟩ := split_all.1 hy
  obtain ⟨h1, h2, h3⟩ := one_sep S H (hl x hx) (hg x hx).2 hc hn
  rcases mem_all.1 hy with hy | hy | hy
  · rw [h1] at hy; exact absurd hy (Finset.notMem_empty y)
  · exact .inl (h2 y hy).1
  · exact .inr (h3 y hy).2

omit S H in
/-- Only states in a match or before one are left. -/
theorem form_low {n : Nat} {d : St} (h1 : d.matched = ∅) (h2 : d.unmatched = ∅) (h3 : d.separated = ∅) (hl : Low A B d.lagging) :
    Form A B (count n (transitionTag d)) (settle d) := by
  obtain ⟨-, -, -, c4⟩ := transitionTag_cases d
  rw [c4 h1 h2 h3]
  obtain ⟨s1, s2, -⟩ := settle_lagging h1 h2 h3
  generalize settle d = e at *
  by_cases h4 : ∃ x ∈ d.lagging, x.2 ≠ 1
  · rw [if_pos h4]
    have h5 : ∃ x ∈ d.lagging, x.2 = 2 := by
      obtain ⟨x, hx, h⟩ := h4
      exact ⟨x, hx, (hl x hx).1.resolve_left h⟩
    obtain ⟨s3, s4, s5⟩ := s2 h5
    refine .inMatch (by unfold count; simp [show Nat.testBit 3 0 = true from rfl]) ?_ (fun x hx => ?_) (fun x hx => hl x (s5 x hx).1)
    · apply Finset.eq_empty_of_forall_notMem
      intro x hx
      obtain ⟨g1, g2⟩ := s4 x hx
      rcases (hl x g1).1 with g3 | g3
      · exact absurd (g3.symm.trans g2) (by decide)
      · exact absurd (g3.symm.trans g2) (by decide)
    · have h6 := s3 x hx
      refine ⟨h6, ?_⟩
      rcases (hl x (s1 x hx)).2 with h | h
      · exact h
      · exact absurd (h.2.symm.trans h6) (by decide)
  · rw [if_neg h4]
    exact .zero (by unfold count; simp [show Nat.testBit 2 1 = true from rfl, show Nat.testBit 2 0 = false from rfl])

omit H in
/-- Only states in a separator or before a match are left. -/
theorem form_sep {n c : Nat} {d : St} (h1 : d.matched = ∅) (h2 : d.unmatched = ∅) (h3 : d.separated = ∅)
    (hl : ∀ y ∈ d.lagging, y = (top A B, 1) ∨ (y.2 = 4 ∧ A.size ≤ y.1 ∧ y.1 < top A B ∧ B.Edge B.initial c (y.1 - A.size))) :
    Form A B (count n (transitionTag d)) (settle d) ∧
    ∀ y ∈ d.lagging, y.2 = 4 → y ∈ (settle d).unmatched ∧ count n (transitionTag d) = 1 := by
  obtain ⟨-, -, -, c4⟩ := transitionTag_cases d
  rw [c4 h1 h2 h3]
  obtain ⟨s1, s2, s3⟩ := settle_lagging h1 h2 h3
  generalize settle d = e at *
  have no2 : ¬ ∃ x ∈ d.lagging, x.2 = 2 := by
    rintro ⟨x, hx, h⟩
    rcases hl x hx with h' | h'
    · rw [h'] at h; simp at h
    · omega
  by_cases h4 : ∃ x ∈ d.lagging, x.2 ≠ 1
  · rw [if_pos h4]
    have h5 : ∃ x ∈ d.lagging, x.2 = 4 := by
      obtain ⟨x, hx, h⟩ := h4
      rcases hl x hx with h' | h'
      · rw [h'] at h; simp at h
      · exact ⟨x, hx, h'.1⟩
    obtain ⟨s4, s5, s6⟩ := s3 no2 h5
    have hone : count n 3 = 1 := by unfold count; simp [show Nat.testBit 3 0 = true from rfl, show Nat.testBit 3 1 = true from rfl]
    have hedge : ∀ x ∈ d.lagging, x.2 = 4 → A.size ≤ x.1 ∧ x.1 < top A B ∧ B.Edge B.initial c (x.1 - A.size) := by
      intro x hx h
      rcases hl x hx with h' | h'
      · rw [h'] at h; simp at h
      · exact h'.2
    obtain ⟨x, hx, hx4⟩ := h5
    refine ⟨.sep x.1 (by rw [hone]) s5 (hedge x hx hx4).1 (hedge x hx hx4).2.1 ?_ ?_, fun y hy hy4 => ⟨(s4 y).2 ⟨hy, hy4⟩, hone⟩⟩
    · ext y
      rw [s4, Finset.mem_singleton]
      constructor
      · rintro ⟨hy, hy4⟩
        have e1 := (hedge x hx hx4).2.2
        have e2 := (hedge y hy hy4).2.2
        have := S.det.2.edge_unique e1 e2
        have := (hedge x hx hx4).1
        have := (hedge y hy hy4).1
        exact Prod.ext (by omega) hy4
      · rintro rfl
        exact ⟨by rw [← hx4]; exact hx, rfl⟩
    · intro y hy
      obtain ⟨g1, g2, g3⟩ := s6 y hy
      exact (hl y g1).resolve_right fun h => g3 h.1
  · rw [if_neg h4]
    refine ⟨.zero (by unfold count; simp [show Nat.testBit 2 1 = true from rfl, show Nat.testBit 2 0 = false from rfl]), fun y hy hy4 => ?_⟩
    exact absurd ⟨y, hy, by omega⟩ h4

end Steps

end Adv
end Count
end Pire
