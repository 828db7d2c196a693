import Verif.Proofs.AdvFull

/-! # One step of `SimpleCountingFsmDetermineTask` -/

namespace Pire
namespace Count
namespace Adv

open Spec

variable {A B f : Fsm}

/-- Those of the separated destinations which are marked are in a match again. -/
theorem split_marked (re0 c : Nat) (src : Group) : ∀ x ∈ (split f re0 c src).separated, f.tag x.1 = 2 → x.2 = 2 := by
  intro x hx ht
  obtain ⟨y, -, hx⟩ := Finset.mem_biUnion.1 hx
  have key : ∀ {dests : Finset Nat} {s : Nat}, x ∈ (tagged f dests s).separated → x.2 = 2 := by
    intro dests s h
    obtain ⟨-, -, h1, h2, -⟩ := mem_tagged.2.1.1 h
    by_cases hs : s = 2
    · subst hs; rcases h2 with h2 | h2 <;> omega
    · exact absurd ⟨hs, ht⟩ h1
  unfold splitOne at hx
  dsimp only at hx
  split at hx
  · rcases Finset.mem_union.1 hx with hx | hx
    · exact key hx
    · rcases Finset.mem_union.1 hx with hx | hx
      · rcases Finset.mem_union.1 hx with hx | hx
        · exact (mem_tagged.1.1 hx).2.2.2.2
        · exact absurd (.inl rfl) (mem_tagged.2.2.1 hx).2.2.2.1
      · exact key hx
  · exact key hx

theorem split_lagging (re0 c : Nat) (src : Group) : (split f re0 c src).lagging = ∅ := rfl

/-- What is true of the destinations before the lagging ones are considered. -/
structure Pre (A B : Fsm) (n : Nat) (t : List Nat) (d : St) : Prop extends Prep A B n t d where
  none : d.lagging = ∅

theorem Pre.mk' {n : Nat} {t : List Nat} {d : St} (h1 : MatG A B n t d.matched) (h2 : Lv A B n t d.unmatched) (h3 : SepG A B n t d.separated)
    (h4 : d.lagging = ∅) : Pre A B n t d := ⟨⟨h1, h2, h3, by rw [h4]; exact .empty⟩, h4⟩

theorem Pre.splitSeparated {n : Nat} {t : List Nat} {d : St} (h : Pre A B n t d) (hm : ∀ x ∈ d.separated, f.tag x.1 = 2 → x.2 = 2) :
    Pre A B n t (splitSeparated f d) := by
  refine .mk' (h.matched.union fun x hx => ?_) (h.unmatched.union fun x hx => ?_) (h.separated.sub (Finset.filter_subset _ _)) h.none
  · obtain ⟨h1, h2⟩ := Finset.mem_filter.1 hx
    exact ⟨hm x h1 h2, (h.separated x h1).1 (hm x h1 h2)⟩
  · exact h.separated.lv x (Finset.mem_filter.1 hx).1

theorem Pre.dedupSeparated {n : Nat} {t : List Nat} {d : St} (h : Pre A B n t d) : Pre A B n t (dedupSeparated d) :=
  .mk' h.matched h.unmatched (h.separated.sub (dedupSeparated_separated d)) h.none

theorem Pre.chooseSeparated {n : Nat} {t : List Nat} {d : St} (h : Pre A B n t d) : Pre A B n t (chooseSeparated f d) := by
  unfold Adv.chooseSeparated
  split
  · exact h
  · have h' := h.dedupSeparated
    dsimp only
    split
    · exact .mk' h'.matched h'.unmatched (h'.separated.sub (Finset.filter_subset _ _)) h'.none
    · split
      · exact .mk' h'.matched h'.unmatched (h'.separated.sub (Finset.filter_subset _ _)) h'.none
      · exact h'

theorem simpleFirst_spec (S : Shape A B f) {n : Nat} {t : List Nat} {c : Nat} {src : Group} (h : Lv A B n t src) (hc : IsLetter c) :
    Pre A B n (t ++ [c]) (simpleFirst f A.initial (f.letters.representative c) src) := by
  obtain ⟨h1, h2, h3⟩ := split_lv S h hc
  have h4 : Pre A B n (t ++ [c]) (split f A.initial (f.letters.representative c) src) := .mk' h1 h2 h3 rfl
  unfold simpleFirst
  dsimp only
  split
  · split
    · have h5 := h4.splitSeparated (split_marked (f := f) A.initial (f.letters.representative c) src)
      have h6 : ∀ s', (s' = splitSeparated f (split f A.initial (f.letters.representative c) src) ∨
          s' = dedupSeparated (splitSeparated f (split f A.initial (f.letters.representative c) src))) → Pre A B n (t ++ [c]) s' := by
        rintro s' (rfl | rfl)
        · exact h5
        · exact h5.dedupSeparated
      have h7 := h6 (if (splitSeparated f (split f A.initial (f.letters.representative c) src)).separated.card > 1
        then dedupSeparated (splitSeparated f (split f A.initial (f.letters.representative c) src))
        else splitSeparated f (split f A.initial (f.letters.representative c) src)) (by split <;> simp)
      revert h7
      generalize (if (splitSeparated f (split f A.initial (f.letters.representative c) src)).separated.card > 1
        then dedupSeparated (splitSeparated f (split f A.initial (f.letters.representative c) src))
        else splitSeparated f (split f A.initial (f.letters.representative c) src)) = s'
      intro h7
      split
      · rename_i h8
        refine .mk' h7.matched h7.separated.lv ?_ h7.none
        dsimp only
        rw [h8]; exact .empty
      · exact h7
    · exact h4.chooseSeparated
  · exact h4

theorem chooseDest_sub {re0 c : Nat} {src : Group} : ∀ x ∈ chooseDest f re0 ∅ src c,
    x ∈ (split f re0 c src).matched ∨ x ∈ (split f re0 c src).unmatched ∨ x ∈ (split f re0 c src).separated := by
  intro x hx
  unfold chooseDest at hx
  dsimp only at hx
  split at hx
  · exact .inl hx
  · split at hx
    · exact .inr (.inr hx)
    · split at hx
      · exact .inr (.inl hx)
      · exact absurd hx (Finset.notMem_empty x)

theorem simpleSecond_spec (S : Shape A B f) {n : Nat} {t : List Nat} {c : Nat} {src : Group} {next : St} (h : SepG A B n t src) (hc : IsLetter c)
    (hn : Pre A B n (t ++ [c]) next) : Pre A B n (t ++ [c]) (simpleSecond f A.initial (f.letters.representative c) src next) := by
  obtain ⟨h1, h2, h3⟩ := split_sep S h hc
  unfold simpleSecond
  split
  · rename_i h4
    apply Pre.chooseSeparated
    split
    · refine .mk' hn.matched hn.unmatched (fun x hx => ?_) hn.none
      dsimp only at hx
      rw [h4.2.1] at hx
      rcases chooseDest_sub x hx with hx | hx | hx
      · exact h1.sep x hx
      · exact h2 x hx
      · exact h3 x hx
    · have h5 : Pre A B n (t ++ [c]) { next with
          matched := next.matched ∪ (split f A.initial (f.letters.representative c) src).matched
          unmatched := next.unmatched ∪ (split f A.initial (f.letters.representative c) src).unmatched
          separated := next.separated ∪ (split f A.initial (f.letters.representative c) src).separated } :=
        .mk' (hn.matched.union h1) (hn.unmatched.union h2.lv) (hn.separated.union h3) hn.none
      dsimp only
      split
      · refine h5.splitSeparated fun x hx ht => ?_
        dsimp only at hx
        rw [h4.2.1, Finset.empty_union] at hx
        exact split_marked _ _ _ x hx ht
      · exact h5
  · exact hn

/-- What `PrepareNextState` of the simple task returns. -/
structure PrepS (A B : Fsm) (n : Nat) (t : List Nat) (d : St) : Prop extends Prep A B n t d where
  alone : d.lagging ≠ ∅ → d.matched = ∅ ∧ d.unmatched = ∅ ∧ d.separated = ∅
  uniform : (∃ x ∈ d.lagging, x.2 ≠ 1) → ∀ x ∈ d.lagging, x.2 ≠ 1

theorem prepare_simple (S : Shape A B f) {n : Nat} {t : List Nat} {s : St} {c : Nat} (h : Inv A B n t s) (hc : IsLetter c) :
    PrepS A B n (t ++ [c]) ((simple f A.initial).prepare s (f.letters.representative c)) := by
  have h0 : Lvl A B 0 t (A.initial, 1) := .inr (.inl ⟨S.det.1.wf.init_lt, t, [], by simp, .refl _, .inl ⟨rfl, rfl⟩⟩)
  have hsrc : Lv A B n t (if s.isEmpty then s.unmatched ∪ {(A.initial, 1)} else s.unmatched) := by
    split
    · rename_i he
      have : s.unmatched = ∅ := (of_decide_eq_true he).2.1
      obtain rfl := h.full.resolve_right (fun h => h this)
      refine h.unmatched.union fun x hx => ?_
      rw [Finset.mem_singleton.1 hx]
      exact h0
    · exact h.unmatched
  have hp := simpleSecond_spec S h.separated hc (simpleFirst_spec S hsrc hc)
  show PrepS A B n (t ++ [c]) (if _ then _ else _)
  revert hp
  generalize simpleSecond f A.initial (f.letters.representative c) s.separated _ = next
  intro hp
  split
  · rename_i he
    rw [Bool.and_eq_true] at he
    obtain ⟨e1, e2, e3, e4⟩ := of_decide_eq_true he.2
    have hd := splitOne_spec S h0 hc
    have hsplit : ∀ x, (x ∈ (split f A.initial (f.letters.representative c) {(A.initial, 1)}).matched → x ∈ (splitOne f A.initial (f.letters.representative c) (A.initial, 1)).matched) ∧
        (x ∈ (split f A.initial (f.letters.representative c) {(A.initial, 1)}).unmatched → x ∈ (splitOne f A.initial (f.letters.representative c) (A.initial, 1)).unmatched) ∧
        (x ∈ (split f A.initial (f.letters.representative c) {(A.initial, 1)}).separated → x ∈ (splitOne f A.initial (f.letters.representative c) (A.initial, 1)).separated) := by
      intro x
      unfold split
      simp
    have hlag : LagG A B (t ++ [c]) (chooseDest f A.initial next.lagging {(A.initial, 1)} (f.letters.representative c)) ∧
        ((∀ x ∈ chooseDest f A.initial next.lagging {(A.initial, 1)} (f.letters.representative c), x.2 ≠ 1) ∨
          ∀ x ∈ chooseDest f A.initial next.lagging {(A.initial, 1)} (f.letters.representative c), x.2 = 1) := by
      rw [e4]
      constructor
      · intro x hx
        rcases chooseDest_sub x hx with hx | hx | hx
        · exact (hd.matched x ((hsplit x).1 hx)).2.lag
        · exact (hd.unmatched x ((hsplit x).2.1 hx)).2.lag
        · exact (hd.separated.lv x ((hsplit x).2.2 hx)).lag
      · unfold chooseDest
        dsimp only
        split
        · refine .inl fun x hx => ?_
          rw [(hd.matched x ((hsplit x).1 hx)).1]; decide
        · split
          · exact .inl fun x hx => hd.tags x ((hsplit x).2.2 hx)
          · split
            · exact .inr fun x hx => (hd.unmatched x ((hsplit x).2.1 hx)).1
            · exact .inr fun x hx => absurd hx (Finset.notMem_empty x)
    refine ⟨⟨hp.matched, hp.unmatched, hp.separated, hlag.1⟩, fun _ => ⟨e1, e2, e3⟩, ?_⟩
    rintro ⟨x, hx, h1⟩
    exact hlag.2.resolve_right fun h => h1 (h x hx)
  · refine ⟨hp.toPrep, fun h => absurd hp.none h, ?_⟩
    rw [hp.none]
    simp

theorem dedupLagging_none {s : St} (h : s.lagging = ∅) : dedupLagging s = s := by
  obtain ⟨a, b, c, d⟩ := s
  dsimp only at h
  subst h
  unfold dedupLagging
  simp

theorem updateLagging_lagging {s : St} : (updateLagging false s).lagging = s.lagging := by
  unfold updateLagging keepMatched dropBehind
  simp only [Bool.false_eq_true, if_false]
  split <;> split <;> rfl

theorem post_simple {n : Nat} {t : List Nat} {d : St} (h : PrepS A B n t d) (re0 : Nat) :
    Inv A B (count n (transitionTag d)) t (normalize ((simple f re0).post d)) := by
  show Inv A B (count n (transitionTag d)) t
    (normalize (dedupSeparated (updateLagging false (if d.lagging ≠ ∅ then { d with unmatched := d.lagging, lagging := d.unmatched } else d))))
  by_cases hl : d.lagging = ∅
  · rw [if_neg (not_not.2 hl)]
    have := post_spec false h.toPrep
    rwa [dedupLagging_none (updateLagging_lagging.trans hl)] at this
  · rw [if_pos hl]
    obtain ⟨e1, e2, e3⟩ := h.alone hl
    obtain ⟨-, -, -, c4⟩ := transitionTag_cases d
    rw [c4 e1 e2 e3]
    obtain ⟨a, b, c, l⟩ := d
    dsimp only at hl e1 e2 e3 ⊢
    subst e1 e2 e3
    have hdrop : dropBehind false ⟨∅, l, ∅, ∅⟩ = ⟨∅, l, ∅, ∅⟩ := by unfold dropBehind; simp
    unfold updateLagging
    rw [hdrop, keepMatched_unmatched false (.inl hl)]
    have hds : dedupSeparated ⟨∅, l, ∅, ∅⟩ = ⟨∅, l, ∅, ∅⟩ := by unfold dedupSeparated; simp
    rw [hds, normalize_unmatched rfl hl]
    refine ⟨rfl, ?_, .empty, .empty, .inr hl⟩
    intro x hx
    have h1 := h.lagging x hx
    by_cases h2 : ∃ x ∈ l, x.2 ≠ 1
    · rw [if_pos h2]
      exact h1.2 (h.uniform h2 x hx)
    · rw [if_neg h2]
      refine h1.1 ?_
      by_contra h3
      exact h2 ⟨x, hx, h3⟩

/-- Leaving out the reset changes nothing if the counter is 0. -/
theorem count_masked {n : Nat} {t : List Nat} {s : St} (h : Inv A B n t s) (a : Nat) :
    count n (if (tagsOf s.unmatched ||| tagsOf s.separated) &&& 6 = 0 then a &&& 1 else a) = count n a := by
  split
  · rename_i hm
    obtain rfl : n = 0 := by
      by_contra hn
      obtain ⟨x, hx⟩ := Finset.nonempty_iff_ne_empty.2 (h.full.resolve_left hn)
      have hl := h.unmatched x hx
      have h1 : x.2 ≠ 1 := fun h => hn (hl.one h)
      have hb : ∃ b, (b = 1 ∨ b = 2) ∧ x.2.testBit b = true := by
        rcases hl.tag with h2 | h2 | h2
        · exact absurd h2 h1
        · exact ⟨1, .inl rfl, by rw [h2]; rfl⟩
        · exact ⟨2, .inr rfl, by rw [h2]; rfl⟩
      obtain ⟨b, hb, hb2⟩ := hb
      have h3 : ((tagsOf s.unmatched ||| tagsOf s.separated) &&& 6).testBit b = true := by
        rw [Nat.testBit_and, Nat.testBit_or, (testBit_tagsOf _ b).2 ⟨x, hx, hb2⟩]
        rcases hb with rfl | rfl <;> rfl
      rw [hm] at h3
      simp at h3
    unfold count
    rw [Nat.testBit_and]
    simp
  · rfl

/-- One step of the simple task. -/
theorem step_simple (S : Shape A B f) {n : Nat} {t : List Nat} {s : St} {c : Nat} (h : Inv A B n t s) (hc : IsLetter c)
    (hv : invalidLetter f (f.letters.representative c) = false) :
    Inv A B (count n ((simple f A.initial).action f s (f.letters.representative c))) (t ++ [c])
      ((simple f A.initial).next f s (f.letters.representative c)) := by
  have h1 := prepare_simple S h hc
  have h3 := count_masked h (transitionTag ((simple f A.initial).prepare s (f.letters.representative c)))
  unfold Kind.next Kind.action
  rw [hv, if_neg Bool.false_ne_true, if_neg Bool.false_ne_true]
  generalize (simple f A.initial).prepare s (f.letters.representative c) = d at h1 h3 ⊢
  have h2 := post_simple (f := f) h1 A.initial
  rw [← h3] at h2
  exact h2

theorem initial_simple : Inv A B 0 [] (simple f A.initial).initial := ⟨rfl, .empty, .empty, .empty, .inl rfl⟩

end Adv
end Count
end Pire
