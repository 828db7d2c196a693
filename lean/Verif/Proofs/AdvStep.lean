import Verif.Proofs.AdvForms

/-! # One step of the full task when matches and separators have no characters in common -/

namespace Pire
namespace Count
namespace Adv

open Spec Counting

variable {A B f : Fsm}

theorem inv_lvl {n : Nat} {t : List Nat} {s : St} (h : Inv A B n t s) {x : Nat × Nat} (hx : x ∈ s.any) : Lvl A B 0 t x := by
  rcases mem_any.1 hx with hx | hx | hx | hx
  · rw [h.matched] at hx; exact absurd hx (Finset.notMem_empty x)
  · exact (h.unmatched x hx).mono (Nat.zero_le _)
  · exact (h.separated.lv x hx).mono (Nat.zero_le _)
  · by_cases h1 : x.2 = 1
    · exact (h.lagging x hx).1 h1
    · exact ((h.lagging x hx).2 h1).mono (Nat.zero_le _)

/-- `PrepareNextState` when there are no separated states. -/
theorem prep_eq {re0 c : Nat} {s : St} (h : s.separated = ∅) :
    (full f re0).prepare s c = ⟨(split f re0 c s.unmatched).matched, (split f re0 c s.unmatched).unmatched, (split f re0 c s.unmatched).separated, (split f re0 c s.lagging).all⟩ := by
  have e : (split f re0 c s.separated).all = ∅ := by
    rw [h]
    apply Finset.eq_empty_of_forall_notMem
    intro y hy
    obtain ⟨x, hx, -⟩ := split_all.1 hy
    exact absurd hx (Finset.notMem_empty x)
  unfold full
  dsimp only
  rw [e, Finset.union_empty]

theorem split_single {re0 c : Nat} {x : Nat × Nat} : split f re0 c {x} =
    ⟨(splitOne f re0 c x).matched, (splitOne f re0 c x).unmatched, (splitOne f re0 c x).separated, ∅⟩ := by
  unfold split
  simp

theorem count_zero' (n : Nat) : count n 0 = n := by unfold count; simp
theorem count_one (n : Nat) : count n 1 = n + 1 := by unfold count; simp [show Nat.testBit 1 1 = false from rfl, show Nat.testBit 1 0 = true from rfl]

section Steps

variable (S : Shape A B f) (H : Apart A.Lang B.Lang)
include S H

theorem form_zero {n : Nat} {t : List Nat} {s : St} {c : Nat} (h : Sane A B f n t s) (hn : n = 0) (hc : IsLetter c) :
    Form A B (count n (transitionTag ((full f A.initial).prepare s (f.letters.representative c)))) (settle ((full f A.initial).prepare s (f.letters.representative c))) := by
  obtain ⟨p1, p2, p3⟩ := prepare_zero S hc h.inv h.zero (h.marked (.inr H.re)) hn
  obtain ⟨z1, z2, z3⟩ := h.zero hn
  have hmat : ∀ y ∈ ((full f A.initial).prepare s (f.letters.representative c)).matched, y.2 = 2 ∧ y.1 < A.size := by
    intro y hy
    obtain ⟨x, hx, hy⟩ := Finset.mem_biUnion.1 hy
    have hx0 := inv_lvl h.inv (mem_any.2 (.inr (.inl hx)))
    have hx1 := z3 x hx
    have hlow : x.1 < A.size ∨ x.1 = top A B := by
      rcases hx0 with h | h | h
      · exact .inr h.1
      · exact .inl h.1
      · omega
    rw [splitOne_low S H hlow] at hy
    obtain ⟨h1, h2, h3, h4, h5⟩ := mem_tagged.1.1 hy
    exact ⟨h5, S.det.1.wf.fin_lt _ ((tag_iff S H _).1.1 h4)⟩
  have hum : Low A B ((full f A.initial).prepare s (f.letters.representative c)).unmatched := by
    intro y hy
    have hy1 := p3 y hy
    have := (prepare_full S h.inv hc).unmatched y hy
    refine ⟨.inl hy1, ?_⟩
    rcases this with h | h | h
    · exact .inr ⟨h.1, hy1⟩
    · exact .inl h.1
    · omega
  generalize (full f A.initial).prepare s (f.letters.representative c) = d at *
  by_cases hm : d.matched = ∅
  · have := settle_zero (n := n) (d := d) fun _ _ => ⟨p1, p2, p3⟩
    by_cases hu : d.unmatched = ∅
    · exact form_low hm hu p1 (by rw [p2]; intro x hx; exact absurd hx (Finset.notMem_empty x))
    · obtain ⟨-, c2, -, -⟩ := transitionTag_cases d
      rw [c2 hm hu, count_zero']
      exact .zero hn
  · obtain ⟨c1, -, -, -⟩ := transitionTag_cases d
    rw [c1 hm, count_one]
    obtain ⟨s1, s2, s3⟩ := settle_matched hm
    refine .inMatch (by omega) s2 (by rw [s1]; exact hmat) fun x hx => ?_
    rcases s3 x hx with hx | hx | hx
    · rw [p2] at hx; exact absurd hx (Finset.notMem_empty x)
    · exact hum x hx
    · rw [p1] at hx; exact absurd hx (Finset.notMem_empty x)

/-- In a match, on a character that does not occur in separators. -/
theorem match_other {n : Nat} {t : List Nat} {s : St} {c : Nat} (h : Sane A B f n t s) (hc : IsLetter c) (hn : ¬ Occurs B.Lang c)
    (h1 : 1 ≤ n) (h2 : s.separated = ∅) (h3 : ∀ x ∈ s.unmatched, x.2 = 2 ∧ x.1 < A.size) (h4 : Low A B s.lagging) :
    Form A B (count n (transitionTag ((full f A.initial).prepare s (f.letters.representative c)))) (settle ((full f A.initial).prepare s (f.letters.representative c))) ∧
    ∀ q p, (q, 2) ∈ s.unmatched → A.Edge q c p → p ∉ f.deadStates →
      (p, 2) ∈ (settle ((full f A.initial).prepare s (f.letters.representative c))).unmatched ∧
      count n (transitionTag ((full f A.initial).prepare s (f.letters.representative c))) = n := by
  have hlag := low_other S H (fun x hx => inv_lvl h.inv (mem_any.2 (.inr (.inr (.inr hx))))) h4 hc hn
  have hone : ∀ x ∈ s.unmatched, _ := fun x hx => one_other S H (inv_lvl h.inv (mem_any.2 (.inr (.inl hx)))) ⟨.inr (h3 x hx).1, .inl (h3 x hx).2⟩ hc hn
  have hlive : ∀ q p, (q, 2) ∈ s.unmatched → A.Edge q c p → p ∉ f.deadStates → (p, 2) ∈ (split f A.initial (f.letters.representative c) s.unmatched).unmatched := by
    intro q p hq he hp
    refine Finset.mem_biUnion.2 ⟨(q, 2), hq, ?_⟩
    rw [splitOne_low S H (.inl (h3 _ hq).2)]
    refine mem_tagged.2.2.2 ⟨(mem_destinations S hc).2 ((S.edge _ _ _ hc).2 (.inl he)), hp, fun h => h.1 rfl, ?_, rfl⟩
    rintro (h | h)
    · simp at h
    · have := (tag_iff S H p).2.1 h
      have := (S.det.1.wf.edge_lt he).2.2
      omega
  rw [prep_eq h2]
  have e1 : (split f A.initial (f.letters.representative c) s.unmatched).matched = ∅ := by
    apply Finset.eq_empty_of_forall_notMem
    intro y hy
    obtain ⟨x, hx, hy⟩ := Finset.mem_biUnion.1 hy
    have := ((hone x hx).1 y hy).2.2
    have := (h3 x hx).1
    omega
  have e2 : (split f A.initial (f.letters.representative c) s.unmatched).separated = ∅ := by
    apply Finset.eq_empty_of_forall_notMem
    intro y hy
    obtain ⟨x, hx, hy⟩ := Finset.mem_biUnion.1 hy
    rw [(hone x hx).2.2] at hy
    exact absurd hy (Finset.notMem_empty y)
  have e3 : ∀ y ∈ (split f A.initial (f.letters.representative c) s.unmatched).unmatched, y.2 = 2 ∧ y.1 < A.size := by
    intro y hy
    obtain ⟨x, hx, hy⟩ := Finset.mem_biUnion.1 hy
    obtain ⟨g1, g2⟩ := (hone x hx).2.1 y hy
    refine ⟨g1.trans (h3 x hx).1, g2.resolve_right fun g => ?_⟩
    have := (h3 x hx).2
    unfold top at g
    omega
  generalize (split f A.initial (f.letters.representative c) s.unmatched) = d at *
  generalize (split f A.initial (f.letters.representative c) s.lagging).all = l at *
  rw [e1, e2]
  by_cases hu : d.unmatched = ∅
  · refine ⟨form_low rfl hu rfl hlag, fun q p hq he hp => ?_⟩
    have := hlive q p hq he hp
    rw [hu] at this
    exact absurd this (Finset.notMem_empty _)
  · obtain ⟨-, c2, -, -⟩ := transitionTag_cases ⟨∅, d.unmatched, ∅, l⟩
    obtain ⟨s1, s2, s3⟩ := settle_unmatched (d := ⟨∅, d.unmatched, ∅, l⟩) rfl hu
    rw [c2 rfl hu, count_zero']
    refine ⟨.inMatch h1 (Finset.subset_empty.1 s2) (by rw [s1]; exact e3) fun x hx => hlag x (s3 hx), fun q p hq he hp => ⟨?_, rfl⟩⟩
    rw [s1]
    exact hlive q p hq he hp

/-- In a match, on a character that occurs in separators. -/
theorem match_sep {n : Nat} {t : List Nat} {s : St} {c : Nat} (h : Sane A B f n t s) (hc : IsLetter c) (hn : Occurs B.Lang c)
    (h1 : 1 ≤ n) (h2 : s.separated = ∅) (h3 : ∀ x ∈ s.unmatched, x.2 = 2 ∧ x.1 < A.size) (h4 : Low A B s.lagging) :
    Form A B (count n (transitionTag ((full f A.initial).prepare s (f.letters.representative c)))) (settle ((full f A.initial).prepare s (f.letters.representative c))) ∧
    ∀ d, B.Edge B.initial c d → A.size + d ∉ f.deadStates → ∀ x ∈ s.any, x.1 ∈ A.finals →
      (A.size + d, 4) ∈ (settle ((full f A.initial).prepare s (f.letters.representative c))).unmatched ∧
      1 ≤ count n (transitionTag ((full f A.initial).prepare s (f.letters.representative c))) ∧
      (x ∈ s.unmatched → n ≤ count n (transitionTag ((full f A.initial).prepare s (f.letters.representative c)))) := by
  have hlag := low_sep S H (fun x hx => inv_lvl h.inv (mem_any.2 (.inr (.inr (.inr hx))))) h4 hc hn
  have hone : ∀ x ∈ s.unmatched, _ := fun x hx => one_sep S H (inv_lvl h.inv (mem_any.2 (.inr (.inl hx)))) (.inl (h3 x hx).2) hc hn
  have hgo : ∀ d, B.Edge B.initial c d → A.size + d ∉ f.deadStates → ∀ x : Nat × Nat, x.1 ∈ A.finals →
      (A.size + d, 4) ∈ (splitOne f A.initial (f.letters.representative c) x).separated := by
    intro d he hd x hx
    rw [splitOne_low S H (.inl (S.det.1.wf.fin_lt _ hx))]
    have ht : f.tag (A.size + d) = 4 := (tag_iff S H _).2.2 ⟨by omega, by have := (S.det.2.wf.edge_lt he).2.2; unfold top; omega⟩
    refine mem_tagged.2.1.2 ⟨(mem_destinations S hc).2 ((S.edge _ _ _ hc).2 (.inr (.inr (.inl ⟨hx, by omega, by rw [Nat.add_sub_cancel_left]; exact he⟩)))), hd, ?_, .inr ht, rfl⟩
    rintro ⟨-, h⟩
    rw [ht] at h
    exact absurd h (by decide)
  have hgo1 : ∀ d, B.Edge B.initial c d → A.size + d ∉ f.deadStates → ∀ x ∈ s.unmatched, x.1 ∈ A.finals →
      (A.size + d, 4) ∈ (split f A.initial (f.letters.representative c) s.unmatched).separated :=
    fun d he hd x hx hf => Finset.mem_biUnion.2 ⟨x, hx, hgo d he hd x hf⟩
  have hgo2 : ∀ d, B.Edge B.initial c d → A.size + d ∉ f.deadStates → ∀ x ∈ s.lagging, x.1 ∈ A.finals →
      (A.size + d, 4) ∈ (split f A.initial (f.letters.representative c) s.lagging).all :=
    fun d he hd x hx hf => split_all.2 ⟨x, hx, mem_all.2 (.inr (.inr (hgo d he hd x hf)))⟩
  have hany : ∀ x ∈ s.any, x ∈ s.unmatched ∨ x ∈ s.lagging := by
    intro x hx
    rcases mem_any.1 hx with hx | hx | hx | hx
    · rw [h.inv.matched] at hx; exact absurd hx (Finset.notMem_empty x)
    · exact .inl hx
    · rw [h2] at hx; exact absurd hx (Finset.notMem_empty x)
    · exact .inr hx
  rw [prep_eq h2]
  have e1 : (split f A.initial (f.letters.representative c) s.unmatched).matched = ∅ := by
    apply Finset.eq_empty_of_forall_notMem
    intro y hy
    obtain ⟨x, hx, hy⟩ := Finset.mem_biUnion.1 hy
    rw [(hone x hx).1] at hy
    exact absurd hy (Finset.notMem_empty y)
  have e2 : (split f A.initial (f.letters.representative c) s.unmatched).unmatched = ∅ := by
    apply Finset.eq_empty_of_forall_notMem
    intro y hy
    obtain ⟨x, hx, hy⟩ := Finset.mem_biUnion.1 hy
    have g1 := ((hone x hx).2.1 y hy).2
    have := (h3 x hx).2
    unfold top at g1
    omega
  have e3 : ∀ y ∈ (split f A.initial (f.letters.representative c) s.unmatched).separated, y.2 = 4 ∧ A.size ≤ y.1 ∧ y.1 < top A B ∧ B.Edge B.initial c (y.1 - A.size) := by
    intro y hy
    obtain ⟨x, hx, hy⟩ := Finset.mem_biUnion.1 hy
    exact ((hone x hx).2.2 y hy).2
  generalize (split f A.initial (f.letters.representative c) s.unmatched) = d at *
  generalize (split f A.initial (f.letters.representative c) s.lagging).all = l at *
  rw [e1, e2]
  by_cases hu : d.separated = ∅
  · rw [hu]
    obtain ⟨g1, g2⟩ := form_sep S (n := n) (d := ⟨∅, ∅, ∅, l⟩) rfl rfl rfl hlag
    refine ⟨g1, fun d' he hd x hx hf => ?_⟩
    rcases hany x hx with hx | hx
    · have := hgo1 d' he hd x hx hf
      rw [hu] at this
      exact absurd this (Finset.notMem_empty _)
    · obtain ⟨g3, g4⟩ := g2 _ (hgo2 d' he hd x hx hf) rfl
      refine ⟨g3, by rw [g4], fun hx => ?_⟩
      have := hgo1 d' he hd x hx hf
      rw [hu] at this
      exact absurd this (Finset.notMem_empty _)
  · obtain ⟨y, hy⟩ := Finset.nonempty_iff_ne_empty.2 hu
    have hsing : d.separated = {y} := by
      ext z
      rw [Finset.mem_singleton]
      constructor
      · intro hz
        obtain ⟨a1, a2, a3, a4⟩ := e3 y hy
        obtain ⟨b1, b2, b3, b4⟩ := e3 z hz
        have := S.det.2.edge_unique a4 b4
        exact Prod.ext (by omega) (b1.trans a1.symm)
      · rintro rfl; exact hy
    obtain ⟨a1, a2, a3, a4⟩ := e3 y hy
    obtain ⟨s1, s2, s3⟩ := settle_separated (d := ⟨∅, ∅, d.separated, l⟩) rfl rfl hsing (.inr (.inr a1))
    obtain ⟨-, -, c3, -⟩ := transitionTag_cases ⟨∅, ∅, d.separated, l⟩
    have hno : ¬ ∃ x ∈ d.separated, x.2 = 2 := by
      rintro ⟨x, hx, hx2⟩
      have := (e3 x hx).1
      omega
    rw [c3 rfl rfl hu, if_neg hno, count_zero']
    refine ⟨.sep y.1 h1 s2 a2 a3 ?_ fun x hx => ?_, fun d' he hd x hx hf => ⟨?_, h1, fun _ => Nat.le_refl _⟩⟩
    · rw [s1]
      exact congrArg _ (Prod.ext rfl a1)
    · obtain ⟨g1, g2⟩ := s3 x hx
      refine (hlag x g1).resolve_right fun g => g2 ?_
      have := S.det.2.edge_unique a4 g.2.2.2
      omega
    · rw [s1, Finset.mem_singleton]
      have := S.det.2.edge_unique a4 he
      exact Prod.ext (by dsimp only; omega) a1.symm

/-- Before the next match, on a character that does not occur in separators. -/
theorem lead_other {n : Nat} {t : List Nat} {s : St} {c q : Nat} (h : Sane A B f n t s) (hc : IsLetter c) (hn : ¬ Occurs B.Lang c)
    (h1 : 1 ≤ n) (h2 : s.separated = ∅) (hq : q < A.size) (h3 : s.unmatched = {(q, 4)}) (h4 : Low A B s.lagging) :
    Form A B (count n (transitionTag ((full f A.initial).prepare s (f.letters.representative c)))) (settle ((full f A.initial).prepare s (f.letters.representative c))) ∧
    ∀ p, A.Edge q c p → p ∉ f.deadStates →
      ((p, 4) ∈ (settle ((full f A.initial).prepare s (f.letters.representative c))).unmatched ∧
        count n (transitionTag ((full f A.initial).prepare s (f.letters.representative c))) = n) ∨
      ((p, 2) ∈ (settle ((full f A.initial).prepare s (f.letters.representative c))).unmatched ∧
        count n (transitionTag ((full f A.initial).prepare s (f.letters.representative c))) = n + 1) := by
  have hlag := low_other S H (fun x hx => inv_lvl h.inv (mem_any.2 (.inr (.inr (.inr hx))))) h4 hc hn
  have hx0 : Lvl A B 0 t (q, 4) := inv_lvl h.inv (mem_any.2 (.inr (.inl (by rw [h3]; simp))))
  have hkey : ∀ p, p ∈ f.destinations q (f.letters.representative c) → p ∉ f.deadStates → p < A.size ∧ A.Edge q c p := by
    intro p hp hd
    rcases dest_inner S hx0 hq hc ((mem_destinations S hc).1 hp) hd with g | g
    · exact ⟨g.1, g.2.1⟩
    · exact absurd g.2.2.2.2 hn
  have hon : ∀ p, A.Edge q c p → p ∈ f.destinations q (f.letters.representative c) := fun p he => (mem_destinations S hc).2 ((S.edge _ _ _ hc).2 (.inl he))
  rw [prep_eq h2, h3, split_single, splitOne_low S H (x := (q, 4)) (.inl hq)]
  have e2 : (tagged f (f.destinations q (f.letters.representative c)) 4).unmatched = ∅ := by
    apply Finset.eq_empty_of_forall_notMem
    intro y hy
    exact (mem_tagged.2.2.1 hy).2.2.2.1 (.inl rfl)
  have em : ∀ y ∈ (tagged f (f.destinations q (f.letters.representative c)) 4).matched, y.2 = 2 ∧ y.1 < A.size ∧ A.Edge q c y.1 := fun y hy => by
    obtain ⟨g1, g2, -, -, g5⟩ := mem_tagged.1.1 hy
    exact ⟨g5, hkey _ g1 g2⟩
  have es : ∀ y ∈ (tagged f (f.destinations q (f.letters.representative c)) 4).separated, y.2 = 4 ∧ y.1 < A.size ∧ A.Edge q c y.1 := fun y hy => by
    obtain ⟨g1, g2, -, -, g5⟩ := mem_tagged.2.1.1 hy
    exact ⟨g5, hkey _ g1 g2⟩
  have hin : ∀ p, A.Edge q c p → p ∉ f.deadStates → (p, 2) ∈ (tagged f (f.destinations q (f.letters.representative c)) 4).matched ∨
      (p, 4) ∈ (tagged f (f.destinations q (f.letters.representative c)) 4).separated := by
    intro p he hd
    by_cases ht : f.tag p = 2
    · exact .inl (mem_tagged.1.2 ⟨hon p he, hd, by decide, ht, rfl⟩)
    · exact .inr (mem_tagged.2.1.2 ⟨hon p he, hd, fun h => ht h.2, .inl rfl, rfl⟩)
  have hexcl : (tagged f (f.destinations q (f.letters.representative c)) 4).matched ≠ ∅ → (tagged f (f.destinations q (f.letters.representative c)) 4).separated = ∅ := by
    intro hm
    obtain ⟨y, hy⟩ := Finset.nonempty_iff_ne_empty.2 hm
    apply Finset.eq_empty_of_forall_notMem
    intro z hz
    have := S.det.1.edge_unique (em y hy).2.2 (es z hz).2.2
    obtain ⟨-, -, -, g4, -⟩ := mem_tagged.1.1 hy
    exact (mem_tagged.2.1.1 hz).2.2.1 ⟨by decide, by rw [← this]; exact g4⟩
  generalize tagged f (f.destinations (q, 4).1 (f.letters.representative c)) (q, 4).2 = d at *
  generalize (split f A.initial (f.letters.representative c) s.lagging).all = l at *
  dsimp only
  rw [e2]
  by_cases hm : d.matched = ∅
  · rw [hm]
    by_cases hu : d.separated = ∅
    · rw [hu]
      refine ⟨form_low rfl rfl rfl hlag, fun p he hd => ?_⟩
      rcases hin p he hd with g | g
      · rw [hm] at g; exact absurd g (Finset.notMem_empty _)
      · rw [hu] at g; exact absurd g (Finset.notMem_empty _)
    · obtain ⟨y, hy⟩ := Finset.nonempty_iff_ne_empty.2 hu
      have hsing : d.separated = {y} := by
        ext z
        rw [Finset.mem_singleton]
        constructor
        · intro hz
          exact Prod.ext (S.det.1.edge_unique (es z hz).2.2 (es y hy).2.2) ((es z hz).1.trans (es y hy).1.symm)
        · rintro rfl; exact hy
      obtain ⟨a1, a2, a3⟩ := es y hy
      obtain ⟨s1, s2, s3⟩ := settle_separated (d := ⟨∅, ∅, d.separated, l⟩) rfl rfl hsing (.inr (.inr a1))
      obtain ⟨-, -, c3, -⟩ := transitionTag_cases ⟨∅, ∅, d.separated, l⟩
      have hno : ¬ ∃ x ∈ d.separated, x.2 = 2 := by
        rintro ⟨x, hx, hx2⟩
        have := (es x hx).1
        omega
      rw [c3 rfl rfl hu, if_neg hno, count_zero']
      refine ⟨.lead y.1 h1 s2 a2 ?_ fun x hx => hlag x (s3 x hx).1, fun p he hd => .inl ⟨?_, rfl⟩⟩
      · rw [s1]
        exact congrArg _ (Prod.ext rfl a1)
      · rw [s1, Finset.mem_singleton]
        exact Prod.ext (S.det.1.edge_unique he a3) a1.symm
  · rw [hexcl hm]
    obtain ⟨c1, -, -, -⟩ := transitionTag_cases ⟨d.matched, ∅, ∅, l⟩
    obtain ⟨s1, s2, s3⟩ := settle_matched (d := ⟨d.matched, ∅, ∅, l⟩) hm
    rw [c1 hm, count_one]
    refine ⟨.inMatch (by omega) s2 (fun x hx => ?_) fun x hx => ?_, fun p he hd => .inr ⟨?_, rfl⟩⟩
    · rw [s1] at hx; exact ⟨(em x hx).1, (em x hx).2.1⟩
    · rcases s3 x hx with hx | hx | hx
      · exact hlag x hx
      · exact absurd hx (Finset.notMem_empty x)
      · exact absurd hx (Finset.notMem_empty x)
    · rw [s1]
      rcases hin p he hd with g | g
      · exact g
      · rw [hexcl hm] at g; exact absurd g (Finset.notMem_empty _)

end Steps

end Adv
end Count
end Pire
