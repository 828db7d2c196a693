import Verif.Proofs.AdvStep

/-! # One step of the full task when matches and separators have no characters in common: separators -/

namespace Pire
namespace Count
namespace Adv

open Spec Counting

variable {A B f : Fsm}

section Steps

variable (S : Shape A B f) (H : Apart A.Lang B.Lang)
include S H

/-- Before the next match, on a character that occurs in separators. -/
theorem lead_sep {n : Nat} {t : List Nat} {s : St} {c q : Nat} (h : Sane A B f n t s) (hc : IsLetter c) (hn : Occurs B.Lang c)
    (h2 : s.separated = ∅) (hq : q < A.size) (h3 : s.unmatched = {(q, 4)}) (h4 : Low A B s.lagging) :
    Form A B (count n (transitionTag ((full f A.initial).prepare s (f.letters.representative c)))) (settle ((full f A.initial).prepare s (f.letters.representative c))) ∧
    ∀ d, B.Edge B.initial c d → A.size + d ∉ f.deadStates → ∀ x ∈ s.any, x.1 ∈ A.finals →
      (A.size + d, 4) ∈ (settle ((full f A.initial).prepare s (f.letters.representative c))).unmatched ∧
      1 ≤ count n (transitionTag ((full f A.initial).prepare s (f.letters.representative c))) ∧
      (x ∈ s.unmatched → n ≤ count n (transitionTag ((full f A.initial).prepare s (f.letters.representative c)))) := by
  have hlag := low_sep S H (fun x hx => inv_lvl h.inv (mem_any.2 (.inr (.inr (.inr hx))))) h4 hc hn
  have hx0 : (q, 4) ∈ s.any := mem_any.2 (.inr (.inl (by rw [h3]; simp)))
  have hqf : q ∉ A.finals := fun hf => by
    have := h.marked (.inr H.re) (q, 4) hx0 ((tag_iff S H q).1.2 hf)
    simp at this
  obtain ⟨o1, o2, o3⟩ := one_sep S H (inv_lvl h.inv hx0) (.inl hq) hc hn
  have hgo2 : ∀ d, B.Edge B.initial c d → A.size + d ∉ f.deadStates → ∀ x ∈ s.lagging, x.1 ∈ A.finals →
      (A.size + d, 4) ∈ (split f A.initial (f.letters.representative c) s.lagging).all := by
    intro d he hd x hx hf
    refine split_all.2 ⟨x, hx, mem_all.2 (.inr (.inr ?_))⟩
    rw [splitOne_low S H (.inl (S.det.1.wf.fin_lt _ hf))]
    have ht : f.tag (A.size + d) = 4 := (tag_iff S H _).2.2 ⟨by omega, by have := (S.det.2.wf.edge_lt he).2.2; unfold top; omega⟩
    refine mem_tagged.2.1.2 ⟨(mem_destinations S hc).2 ((S.edge _ _ _ hc).2 (.inr (.inr (.inl ⟨hf, by omega, by rw [Nat.add_sub_cancel_left]; exact he⟩)))), hd, ?_, .inr ht, rfl⟩
    rintro ⟨-, h⟩
    rw [ht] at h
    exact absurd h (by decide)
  have e2 : (splitOne f A.initial (f.letters.representative c) (q, 4)).unmatched = ∅ := by
    apply Finset.eq_empty_of_forall_notMem
    intro y hy
    have := (o2 y hy).2
    unfold top at this
    dsimp only at this
    omega
  have e3 : (splitOne f A.initial (f.letters.representative c) (q, 4)).separated = ∅ := by
    apply Finset.eq_empty_of_forall_notMem
    intro y hy
    exact hqf (o3 y hy).1
  rw [prep_eq h2, h3, split_single, o1, e2, e3]
  generalize (split f A.initial (f.letters.representative c) s.lagging).all = l at *
  obtain ⟨g1, g2⟩ := form_sep S (n := n) (d := ⟨∅, ∅, ∅, l⟩) rfl rfl rfl hlag
  refine ⟨g1, fun d he hd x hx hf => ?_⟩
  have hxl : x ∈ s.lagging := by
    rcases mem_any.1 hx with hx | hx | hx | hx
    · rw [h.inv.matched] at hx; exact absurd hx (Finset.notMem_empty x)
    · rw [h3, Finset.mem_singleton] at hx; subst hx; exact absurd hf hqf
    · rw [h2] at hx; exact absurd hx (Finset.notMem_empty x)
    · exact hx
  obtain ⟨g3, g4⟩ := g2 _ (hgo2 d he hd x hxl hf) rfl
  refine ⟨g3, by rw [g4], fun hx => ?_⟩
  rw [Finset.mem_singleton] at hx
  subst hx
  exact absurd hf hqf

/-- In a separator, on a character that occurs in separators. -/
theorem sep_sep {n : Nat} {t : List Nat} {s : St} {c d : Nat} (h : Sane A B f n t s) (hc : IsLetter c) (hn : Occurs B.Lang c)
    (h1 : 1 ≤ n) (h2 : s.separated = ∅) (hd : A.size ≤ d) (hd2 : d < top A B) (h3 : s.unmatched = {(d, 4)}) (h4 : ∀ x ∈ s.lagging, x = (top A B, 1)) :
    Form A B (count n (transitionTag ((full f A.initial).prepare s (f.letters.representative c)))) (settle ((full f A.initial).prepare s (f.letters.representative c))) ∧
    ∀ p, B.Edge (d - A.size) c p → A.size + p ∉ f.deadStates →
      (A.size + p, 4) ∈ (settle ((full f A.initial).prepare s (f.letters.representative c))).unmatched ∧
      count n (transitionTag ((full f A.initial).prepare s (f.letters.representative c))) = n := by
  have hx0 : (d, 4) ∈ s.any := mem_any.2 (.inr (.inl (by rw [h3]; simp)))
  have hlow : Low A B s.lagging := fun x hx => by rw [h4 x hx]; exact ⟨.inl rfl, .inr ⟨rfl, rfl⟩⟩
  have hlag := low_sep S H (fun x hx => inv_lvl h.inv (mem_any.2 (.inr (.inr (.inr hx))))) hlow hc hn
  have hkey : ∀ p, p ∈ f.destinations d (f.letters.representative c) → p ∉ f.deadStates → A.size ≤ p ∧ p < top A B ∧ B.Edge (d - A.size) c (p - A.size) := by
    intro p hp hpd
    obtain ⟨g1, g2, g3, -⟩ := dest_sep S (inv_lvl h.inv hx0) hd hd2 hc ((mem_destinations S hc).1 hp) hpd
    exact ⟨g1, g2, g3⟩
  have hre : ∀ p, p ∈ f.destinations A.initial (f.letters.representative c) → p ∉ f.deadStates → False := fun p hp hpd =>
    H.apart c (dest_init S H hc ((mem_destinations S hc).1 hp) hpd).2.2 hn
  have eR : (tagged f (f.destinations A.initial (f.letters.representative c)) 4).all = ∅ := by
    apply Finset.eq_empty_of_forall_notMem
    intro y hy
    rcases mem_all.1 hy with hy | hy | hy
    · exact hre _ (mem_tagged.1.1 hy).1 (mem_tagged.1.1 hy).2.1
    · exact hre _ (mem_tagged.2.2.1 hy).1 (mem_tagged.2.2.1 hy).2.1
    · exact hre _ (mem_tagged.2.1.1 hy).1 (mem_tagged.2.1.1 hy).2.1
  have eone : splitOne f A.initial (f.letters.representative c) (d, 4) = tagged f (f.destinations d (f.letters.representative c)) 4 := by
    unfold splitOne
    dsimp only
    rw [eR, Finset.union_empty]
    split <;> rfl
  have e1 : (tagged f (f.destinations d (f.letters.representative c)) 4).matched = ∅ := by
    apply Finset.eq_empty_of_forall_notMem
    intro y hy
    obtain ⟨g1, g2, -, g4, -⟩ := mem_tagged.1.1 hy
    have := S.det.1.wf.fin_lt _ ((tag_iff S H _).1.1 g4)
    have := (hkey _ g1 g2).1
    omega
  have e2 : (tagged f (f.destinations d (f.letters.representative c)) 4).unmatched = ∅ := by
    apply Finset.eq_empty_of_forall_notMem
    intro y hy
    exact (mem_tagged.2.2.1 hy).2.2.2.1 (.inl rfl)
  have es : ∀ y ∈ (tagged f (f.destinations d (f.letters.representative c)) 4).separated, y.2 = 4 ∧ A.size ≤ y.1 ∧ y.1 < top A B ∧ B.Edge (d - A.size) c (y.1 - A.size) := fun y hy => by
    obtain ⟨g1, g2, -, -, g5⟩ := mem_tagged.2.1.1 hy
    exact ⟨g5, hkey _ g1 g2⟩
  have hin : ∀ p, B.Edge (d - A.size) c p → A.size + p ∉ f.deadStates → (A.size + p, 4) ∈ (tagged f (f.destinations d (f.letters.representative c)) 4).separated := by
    intro p he hp
    have ht : f.tag (A.size + p) = 4 := (tag_iff S H _).2.2 ⟨by omega, by have := (S.det.2.wf.edge_lt he).2.2; unfold top; omega⟩
    refine mem_tagged.2.1.2 ⟨(mem_destinations S hc).2 ((S.edge _ _ _ hc).2 (.inr (.inl ⟨hd, by omega, by rw [Nat.add_sub_cancel_left]; exact he⟩))), hp, ?_, .inl rfl, rfl⟩
    rintro ⟨-, h⟩
    rw [ht] at h
    exact absurd h (by decide)
  rw [prep_eq h2, h3, split_single, eone, e1, e2]
  have hlag1 : ∀ y ∈ (split f A.initial (f.letters.representative c) s.lagging).all, y = (top A B, 1) := by
    intro y hy
    obtain ⟨x, hx, hy⟩ := split_all.1 hy
    obtain ⟨o1, o2, o3⟩ := one_sep S H (inv_lvl h.inv (mem_any.2 (.inr (.inr (.inr hx))))) (hlow x hx).2 hc hn
    rcases mem_all.1 hy with hy | hy | hy
    · rw [o1] at hy; exact absurd hy (Finset.notMem_empty y)
    · exact (o2 y hy).1
    · have g := S.det.1.wf.fin_lt _ (o3 y hy).1
      rw [h4 x hx] at g
      unfold top at g
      dsimp only at g
      omega
  generalize tagged f (f.destinations d (f.letters.representative c)) 4 = D at *
  generalize (split f A.initial (f.letters.representative c) s.lagging).all = l at *
  by_cases hu : D.separated = ∅
  · rw [hu]
    refine ⟨(form_sep S (n := n) (c := c) (d := ⟨∅, ∅, ∅, l⟩) rfl rfl rfl hlag).1, fun p he hp => ?_⟩
    have := hin p he hp
    rw [hu] at this
    exact absurd this (Finset.notMem_empty _)
  · obtain ⟨y, hy⟩ := Finset.nonempty_iff_ne_empty.2 hu
    obtain ⟨a1, a2, a3, a4⟩ := es y hy
    have hsing : D.separated = {y} := by
      ext z
      rw [Finset.mem_singleton]
      constructor
      · intro hz
        obtain ⟨b1, b2, b3, b4⟩ := es z hz
        have := S.det.2.edge_unique a4 b4
        exact Prod.ext (by omega) (b1.trans a1.symm)
      · rintro rfl; exact hy
    obtain ⟨s1, s2, s3⟩ := settle_separated (d := ⟨∅, ∅, D.separated, l⟩) rfl rfl hsing (.inr (.inr a1))
    obtain ⟨-, -, c3, -⟩ := transitionTag_cases ⟨∅, ∅, D.separated, l⟩
    have hno : ¬ ∃ x ∈ D.separated, x.2 = 2 := by
      rintro ⟨x, hx, hx2⟩
      have := (es x hx).1
      omega
    rw [c3 rfl rfl hu, if_neg hno, count_zero']
    clear hlag e1 e2 eR eone hre c3 hkey
    dsimp only at s3
    generalize settle ⟨∅, ∅, D.separated, l⟩ = e at *
    refine ⟨.sep y.1 h1 s2 a2 a3 ?_ fun x hx => hlag1 x (s3 x hx).1, fun p he hp => ⟨?_, rfl⟩⟩
    · rw [s1]
      exact congrArg _ (Prod.ext rfl a1)
    · rw [s1, Finset.mem_singleton]
      have := S.det.2.edge_unique a4 he
      exact Prod.ext (by dsimp only; omega) a1.symm

/-- In a separator, on a character that does not occur in separators. -/
theorem sep_other {n : Nat} {t : List Nat} {s : St} {c d : Nat} (h : Sane A B f n t s) (hc : IsLetter c) (hn : ¬ Occurs B.Lang c)
    (h1 : 1 ≤ n) (h2 : s.separated = ∅) (hd : A.size ≤ d) (hd2 : d < top A B) (h3 : s.unmatched = {(d, 4)}) (h4 : ∀ x ∈ s.lagging, x = (top A B, 1)) :
    Form A B (count n (transitionTag ((full f A.initial).prepare s (f.letters.representative c)))) (settle ((full f A.initial).prepare s (f.letters.representative c))) ∧
    ∀ p, d - A.size ∈ B.finals → A.Edge A.initial c p → p ∉ f.deadStates →
      ((p, 4) ∈ (settle ((full f A.initial).prepare s (f.letters.representative c))).unmatched ∧
        count n (transitionTag ((full f A.initial).prepare s (f.letters.representative c))) = n) ∨
      ((p, 2) ∈ (settle ((full f A.initial).prepare s (f.letters.representative c))).unmatched ∧
        count n (transitionTag ((full f A.initial).prepare s (f.letters.representative c))) = n + 1) := by
  have hx0 : (d, 4) ∈ s.any := mem_any.2 (.inr (.inl (by rw [h3]; simp)))
  have hlow : Low A B s.lagging := fun x hx => by rw [h4 x hx]; exact ⟨.inl rfl, .inr ⟨rfl, rfl⟩⟩
  have hlag := low_other S H (fun x hx => inv_lvl h.inv (mem_any.2 (.inr (.inr (.inr hx))))) hlow hc hn
  have hdead : ∀ p, p ∈ f.destinations d (f.letters.representative c) → p ∉ f.deadStates → False := fun p hp hpd =>
    hn (dest_sep S (inv_lvl h.inv hx0) hd hd2 hc ((mem_destinations S hc).1 hp) hpd).2.2.2
  have e1 : (tagged f (f.destinations d (f.letters.representative c)) 4).matched = ∅ := by
    apply Finset.eq_empty_of_forall_notMem
    intro y hy
    exact hdead _ (mem_tagged.1.1 hy).1 (mem_tagged.1.1 hy).2.1
  have e2 : (tagged f (f.destinations d (f.letters.representative c)) 4).unmatched = ∅ := by
    apply Finset.eq_empty_of_forall_notMem
    intro y hy
    exact hdead _ (mem_tagged.2.2.1 hy).1 (mem_tagged.2.2.1 hy).2.1
  have e3 : (tagged f (f.destinations d (f.letters.representative c)) 4).separated = ∅ := by
    apply Finset.eq_empty_of_forall_notMem
    intro y hy
    exact hdead _ (mem_tagged.2.1.1 hy).1 (mem_tagged.2.1.1 hy).2.1
  have eone : splitOne f A.initial (f.letters.representative c) (d, 4) =
      ⟨∅, ∅, if f.isFinal d then (tagged f (f.destinations A.initial (f.letters.representative c)) 4).all else ∅, ∅⟩ := by
    have e4 : (tagged f (f.destinations d (f.letters.representative c)) 4).lagging = ∅ := rfl
    unfold splitOne
    dsimp only
    generalize tagged f (f.destinations d (f.letters.representative c)) 4 = T at *
    obtain ⟨T1, T2, T3, T4⟩ := T
    dsimp only at e1 e2 e3 e4
    subst e1 e2 e3 e4
    split
    · rw [Finset.empty_union]
    · rfl
  have hkey : ∀ p, p ∈ f.destinations A.initial (f.letters.representative c) → p ∉ f.deadStates → p < A.size ∧ A.Edge A.initial c p := fun p hp hpd => by
    obtain ⟨g1, g2, -⟩ := dest_init S H hc ((mem_destinations S hc).1 hp) hpd
    exact ⟨g1, g2⟩
  have es : ∀ y ∈ (tagged f (f.destinations A.initial (f.letters.representative c)) 4).all,
      (y.2 = if f.tag y.1 = 2 then 2 else 4) ∧ y.1 < A.size ∧ A.Edge A.initial c y.1 := by
    intro y hy
    rcases mem_all.1 hy with hy | hy | hy
    · obtain ⟨g1, g2, g3, g4, g5⟩ := mem_tagged.1.1 hy
      exact ⟨by rw [if_pos g4]; exact g5, hkey _ g1 g2⟩
    · exact absurd (.inl rfl) (mem_tagged.2.2.1 hy).2.2.2.1
    · obtain ⟨g1, g2, g3, g4, g5⟩ := mem_tagged.2.1.1 hy
      exact ⟨by rw [if_neg fun h => g3 ⟨by decide, h⟩]; exact g5, hkey _ g1 g2⟩
  have hin : ∀ p, A.Edge A.initial c p → p ∉ f.deadStates → (p, if f.tag p = 2 then 2 else 4) ∈ (tagged f (f.destinations A.initial (f.letters.representative c)) 4).all := by
    intro p he hp
    have hm : p ∈ f.destinations A.initial (f.letters.representative c) := (mem_destinations S hc).2 ((S.edge _ _ _ hc).2 (.inl he))
    by_cases ht : f.tag p = 2
    · rw [if_pos ht]
      exact mem_all.2 (.inl (mem_tagged.1.2 ⟨hm, hp, by decide, ht, rfl⟩))
    · rw [if_neg ht]
      exact mem_all.2 (.inr (.inr (mem_tagged.2.1.2 ⟨hm, hp, fun h => ht h.2, .inl rfl, rfl⟩)))
  have hfin : d - A.size ∈ B.finals → f.isFinal d = true := fun hf => (final_iff S H d).2 ⟨hd, hf⟩
  rw [prep_eq h2, h3, split_single, eone]
  dsimp only
  generalize (tagged f (f.destinations A.initial (f.letters.representative c)) 4).all = D at *
  generalize (split f A.initial (f.letters.representative c) s.lagging).all = l at *
  by_cases hu : (if f.isFinal d then D else ∅) = (∅ : Group)
  · rw [hu]
    refine ⟨form_low rfl rfl rfl hlag, fun p hf he hp => ?_⟩
    have := hin p he hp
    rw [if_pos (hfin hf)] at hu
    rw [hu] at this
    exact absurd this (Finset.notMem_empty _)
  · have hf : f.isFinal d = true := by
      by_contra hf
      rw [if_neg hf] at hu
      exact hu rfl
    rw [if_pos hf] at hu ⊢
    obtain ⟨y, hy⟩ := Finset.nonempty_iff_ne_empty.2 hu
    obtain ⟨a1, a2, a3⟩ := es y hy
    have hsing : D = {y} := by
      ext z
      rw [Finset.mem_singleton]
      constructor
      · intro hz
        obtain ⟨b1, b2, b3⟩ := es z hz
        have := S.det.1.edge_unique b3 a3
        exact Prod.ext this (by rw [b1, a1, this])
      · rintro rfl; exact hy
    have htag : y.2 = 2 ∨ y.2 = 4 := by
      rw [a1]; split <;> simp
    obtain ⟨s1, s2, s3⟩ := settle_separated (d := ⟨∅, ∅, D, l⟩) rfl rfl hsing (.inr htag)
    obtain ⟨-, -, c3, -⟩ := transitionTag_cases ⟨∅, ∅, D, l⟩
    rw [c3 rfl rfl hu]
    have hend : ∀ p, A.Edge A.initial c p → p ∉ f.deadStates → (p, y.2) ∈ (settle ⟨∅, ∅, D, l⟩).unmatched := by
      intro p he hp
      rw [s1, Finset.mem_singleton]
      exact Prod.ext (S.det.1.edge_unique he a3) rfl
    dsimp only at s3
    clear c3
    generalize settle ⟨∅, ∅, D, l⟩ = e at *
    rcases htag with ht | ht
    · rw [if_pos ⟨y, hy, ht⟩, count_one]
      refine ⟨.inMatch (by omega) s2 (fun x hx => ?_) fun x hx => hlag x (s3 x hx).1, fun p _ he hp => .inr ⟨?_, rfl⟩⟩
      · rw [s1, Finset.mem_singleton] at hx
        subst hx
        exact ⟨ht, a2⟩
      · have := hend p he hp
        rw [ht] at this
        exact this
    · have hno : ¬ ∃ x ∈ D, x.2 = 2 := by
        rintro ⟨x, hx, hx2⟩
        rw [hsing, Finset.mem_singleton] at hx
        subst hx
        omega
      rw [if_neg hno, count_zero']
      refine ⟨.lead y.1 h1 s2 a2 ?_ fun x hx => hlag x (s3 x hx).1, fun p _ he hp => .inl ⟨?_, rfl⟩⟩
      · rw [s1]
        exact congrArg _ (Prod.ext rfl ht)
      · have := hend p he hp
        rw [ht] at this
        exact this

end Steps

end Adv
end Count
end Pire
