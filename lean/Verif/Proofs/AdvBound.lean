import Verif.Proofs.AdvCount
import Verif.Proofs.DetBound
import Verif.Props.Scanner

/-! # Small tables of the advanced counting scanners -/

namespace Pire
namespace Count
namespace Adv

open Spec Counting

variable {A B f : Fsm}

/-- The states `Determine` finds. -/
theorem full_reach (S : Shape A B f) (H : Apart A.Lang B.Lang) (hs : ∃ w, w ∈ B.Lang) {s : St} (h : ((full f A.initial).task f).Reach s) :
    ∃ n t, IsWord t ∧ Sane A B f n t s ∧ Form A B n s := by
  induction h with
  | init => exact ⟨0, [], fun c hc => absurd hc List.not_mem_nil, sane_initial S, .zero rfl⟩
  | @step s e _ _ he ih =>
    obtain ⟨n, t, h1, h2, h3⟩ := ih
    show ∃ n t, IsWord t ∧ Sane A B f n t ((full f A.initial).next f s e.rep) ∧ Form A B n ((full f A.initial).next f s e.rep)
    have hrep : f.letters.representative e.rep = e.rep := rep_class S.wf.let_wf he (S.wf.let_wf.rep_mem e he)
    have hl : IsLetter e.rep := (S.all e.rep).1 (by rw [S.wf.let_wf.inv_of_mem he (S.wf.let_wf.rep_mem e he)]; rfl)
    by_cases hv : invalidLetter f e.rep = true
    · refine ⟨0, [], fun c hc => absurd hc List.not_mem_nil, ?_⟩
      unfold Kind.next
      rw [if_pos hv]
      exact ⟨sane_initial S, .zero rfl⟩
    · rw [Bool.not_eq_true] at hv
      have hst := sane_step S hs h2 h1 hl (by rw [hrep]; exact hv)
      have hm := (moves S H h2 h3 hl).form
      rw [hrep] at hst hm
      refine ⟨_, t ++ [e.rep], ?_, hst, ?_⟩
      · intro c hc
        rcases List.mem_append.1 hc with hc | hc
        · exact h1 c hc
        · rw [List.mem_singleton.1 hc]; exact hl
      · have ha : (full f A.initial).action f s e.rep = transitionTag ((full f A.initial).prepare s e.rep) := by
          unfold Kind.action
          rw [hv, if_neg Bool.false_ne_true]
          rfl
        rw [next_full hv, ha]
        exact hm

/-- Where the states are from. -/
def pool (A B : Fsm) : Finset St :=
  ((Finset.range (A.size + B.size + 1) ×ˢ {1}).powerset.image fun u => ⟨∅, u, ∅, ∅⟩) ∪
  (((Finset.range A.size ×ˢ {2}).powerset ∪ (Finset.range (A.size + B.size)).image fun q => {(q, 4)}) ×ˢ
    (insert (top A B, 1) (Finset.range A.size ×ˢ {1, 2})).powerset).image fun x => ⟨∅, x.1, ∅, x.2⟩

theorem pool_card (A B : Fsm) : (pool A B).card ≤ 2 ^ (A.size + B.size + 1) + (2 ^ A.size + (A.size + B.size)) * 2 ^ (2 * A.size + 1) := by
  unfold pool
  refine (Finset.card_union_le _ _).trans (Nat.add_le_add ?_ ?_)
  · refine Finset.card_image_le.trans ?_
    rw [Finset.card_powerset, Finset.card_product, Finset.card_range, Finset.card_singleton, Nat.mul_one]
  · refine Finset.card_image_le.trans ?_
    rw [Finset.card_product]
    refine Nat.mul_le_mul ((Finset.card_union_le _ _).trans (Nat.add_le_add ?_ ?_)) ?_
    · rw [Finset.card_powerset, Finset.card_product, Finset.card_range, Finset.card_singleton, Nat.mul_one]
    · refine Finset.card_image_le.trans ?_
      rw [Finset.card_range]
    · rw [Finset.card_powerset]
      refine Nat.pow_le_pow_right (by decide) ((Finset.card_insert_le _ _).trans ?_)
      rw [Finset.card_product, Finset.card_range]
      rw [show ({1, 2} : Finset Nat).card = 2 from rfl]
      omega

theorem reach_pool (S : Shape A B f) (H : Apart A.Lang B.Lang) (hs : ∃ w, w ∈ B.Lang) {s : St} (h : ((full f A.initial).task f).Reach s) : s ∈ pool A B := by
  obtain ⟨n, t, -, h2, h3⟩ := full_reach S H hs h
  have hm := h2.inv.matched
  have hlow : Low A B s.lagging → s.lagging ∈ (insert (top A B, 1) (Finset.range A.size ×ˢ {1, 2})).powerset := by
    intro hl
    rw [Finset.mem_powerset]
    intro x hx
    obtain ⟨g1, g2⟩ := hl x hx
    rw [Finset.mem_insert, Finset.mem_product, Finset.mem_range, Finset.mem_insert, Finset.mem_singleton]
    rcases g2 with g2 | g2
    · exact .inr ⟨g2, g1⟩
    · exact .inl (Prod.ext g2.1 g2.2)
  have hmk : ∀ u l, s.unmatched = u → s.separated = ∅ → s.lagging = l → s = ⟨∅, u, ∅, l⟩ := by
    rintro u l rfl e rfl
    obtain ⟨s1, s2, s3, s4⟩ := s
    dsimp only at hm e
    rw [hm, e]
  unfold pool
  rw [Finset.mem_union]
  cases h3 with
  | zero hn =>
    obtain ⟨z1, z2, z3⟩ := h2.zero hn
    refine .inl (Finset.mem_image.2 ⟨s.unmatched, ?_, (hmk _ _ rfl z1 z2).symm⟩)
    rw [Finset.mem_powerset]
    intro x hx
    rw [Finset.mem_product, Finset.mem_range, Finset.mem_singleton]
    refine ⟨?_, z3 x hx⟩
    rcases inv_lvl h2.inv (mem_any.2 (.inr (.inl hx))) with g | g | g
    · have := g.1; unfold top at this; omega
    · have := g.1; omega
    · have := g.2.1; unfold top at this; omega
  | inMatch h1 e h3 h4 =>
    refine .inr (Finset.mem_image.2 ⟨(s.unmatched, s.lagging), Finset.mem_product.2 ⟨Finset.mem_union_left _ ?_, hlow h4⟩, (hmk _ _ rfl e rfl).symm⟩)
    rw [Finset.mem_powerset]
    intro x hx
    rw [Finset.mem_product, Finset.mem_range, Finset.mem_singleton]
    exact ⟨(h3 x hx).2, (h3 x hx).1⟩
  | lead q h1 e hq h3 h4 =>
    refine .inr (Finset.mem_image.2 ⟨(s.unmatched, s.lagging), Finset.mem_product.2 ⟨Finset.mem_union_right _ ?_, hlow h4⟩, (hmk _ _ rfl e rfl).symm⟩)
    exact Finset.mem_image.2 ⟨q, by rw [Finset.mem_range]; omega, h3.symm⟩
  | sep d h1 e hd hd2 h3 h4 =>
    refine .inr (Finset.mem_image.2 ⟨(s.unmatched, s.lagging), Finset.mem_product.2 ⟨Finset.mem_union_right _ ?_, hlow ?_⟩, (hmk _ _ rfl e rfl).symm⟩)
    · exact Finset.mem_image.2 ⟨d, by rw [Finset.mem_range]; exact hd2, h3.symm⟩
    · intro x hx
      rw [h4 x hx]
      exact ⟨.inl rfl, .inr ⟨rfl, rfl⟩⟩

/-- `Determine` does not fall back to the simple task, and its table is small. -/
theorem full_run (S : Shape A B f) (H : Apart A.Lang B.Lang) (hs : ∃ w, w ∈ B.Lang) (hA : A.size ≤ 4) (hB : B.size ≤ 4) :
    ∃ t, determine f A.initial = some t ∧ t.simple = false ∧ t.fsm.size ≤ 12800 := by
  have a0 : 0 < A.size := Nat.lt_of_le_of_lt (Nat.zero_le _) S.det.1.wf.init_lt
  have b0 : 0 < B.size := Nat.lt_of_le_of_lt (Nat.zero_le _) S.det.2.wf.init_lt
  have hcard : (pool A B).card ≤ 12800 ∧ (pool A B).card ≤ f.size * 4096 + 1 := by
    have := pool_card A B
    rw [S.size]
    generalize A.size = a at *
    generalize B.size = b at *
    generalize (pool A B).card = k at *
    interval_cases a <;> interval_cases b <;> (norm_num at this ⊢; omega)
  have hlen : ∀ l : List St, l.Nodup → (∀ s ∈ l, ((full f A.initial).task f).Reach s) → l.length ≤ (pool A B).card := by
    intro l hn hr
    rw [← List.toFinset_card_of_nodup hn]
    refine Finset.card_le_card fun s hs' => reach_pool S H hs (hr s (List.mem_toFinset.1 hs'))
  obtain ⟨r1, r2⟩ := DTask.run_spec (t := (full f A.initial).task f) S.wf.let_wf (f.size * 4096)
  cases hrun : ((full f A.initial).task f).run (f.size * 4096) with
  | none =>
    obtain ⟨l, l1, l2, l3⟩ := r2.1 hrun
    have := hlen l l1 l2
    omega
  | some r =>
    have hR := r1 _ _ hrun
    refine ⟨_, by unfold determine; rw [hrun], rfl, ?_⟩
    have e1 : ((full f A.initial).accept f false r.1 r.2).fsm.size = r.1.length := (accept_dst _ _ _ _ _).1
    rw [e1]
    exact (hlen r.1 hR.nodup fun s hs' => (hR.mem s).1 hs').trans hcard.1

theorem minimize_size {L : Partition} (hl : L.WF) {t : Table} (h0 : 0 < t.fsm.size)
    (h : ∀ q < t.fsm.size, ∀ e ∈ L.set, t.fsm.firstDst q e.rep < t.fsm.size) : (minimize L t).fsm.size ≤ t.fsm.size := by
  obtain ⟨-, -, k3, -, -⟩ := MTask.run_spec (rowTask_wf hl h) (R := fun q q' => q = q') (fun _ _ _ _ h _ _ => by rw [h]) (cls0 := rowClass L t)
    (fun _ _ _ _ h => by rw [h]) (fun q hq => rowClass_lt hq) (fun i hi => rowClass_onto hi) (Nat.lt_of_le_of_lt (Nat.zero_le _) (rowClass_lt h0))
  refine Nat.le_trans (Nat.le_of_eq ?_) k3
  unfold minimize
  generalize (rowTask L t).run (rowClass L t) (firstStates L t).length = r
  unfold mergeRows
  dsimp only
  rw [(fold_setFinal_if (fun q => t.fsm.isFinal q) r.cls (List.range t.fsm.size) _).1, Fsm.connectAll_size]
  rfl

/-- Characters that occur in no word cannot be told apart. -/
theorem unused_equi {re A : Fsm} (h : re.Good) (hnd : re.determined = false) (hA : re.canonize = some A) {c c' : Nat} (hc : IsLetter c) (hc' : IsLetter c')
    (ho : ¬ Occurs re.Lang c) (ho' : ¬ Occurs re.Lang c') : A.Equi c c' := by
  obtain ⟨a1, -, a3, a4⟩ := Fsm.canonize_spec h hA
  have hr := Fsm.canonize_reach h hnd hA
  have key : ∀ q d p, IsLetter d → ¬ Occurs re.Lang d → A.Edge q d p → ∀ w, w ∉ A.LangFrom p := by
    intro q d p hd hn he w hw
    obtain ⟨u, -, hu⟩ := hr q (a1.wf.edge_lt he).1
    rw [← a3] at hn
    exact hn (occurs_of_run hu hd.2 he ⟨w, hw⟩)
  have one : ∀ q d d' p, IsLetter d → IsLetter d' → ¬ Occurs re.Lang d → ¬ Occurs re.Lang d' → A.Edge q d p → A.Edge q d' p := by
    intro q d d' p hd hd' hn hn' he
    obtain ⟨p', hp'⟩ := a1.exists_edge (a1.wf.edge_lt he).1 hd'
    have : p = p' := by
      refine a4 _ (a1.wf.edge_lt he).2.2 _ (a1.wf.edge_lt hp').2.2 (Set.ext fun w => ?_)
      exact iff_of_false (key q d p hd hn he w) (key q d' p' hd' hn' hp' w)
    rw [this]
    exact hp'
  exact fun q p => ⟨one q c c' p hc hc' ho ho', one q c' c p hc' hc ho' ho⟩

/-- Nine characters that are not used leave at most 256 letters. -/
theorem letters_small {re sep f : Fsm} {re0 : Nat} (h : re.Good) (h2 : sep.Good) (hnd : re.determined = false) (hnd2 : sep.determined = false) (ht : Untagged re)
    (hc : countingFsm re sep = some (f, re0)) (ho : ∀ c < 9, ¬ Occurs re.Lang c ∧ ¬ Occurs sep.Lang c) : f.letters.size ≤ 256 := by
  unfold countingFsm at hc
  cases hA : re.canonize with
  | none => rw [hA] at hc; cases hc
  | some A =>
    cases hB : sep.canonize with
    | none => rw [hA, hB] at hc; cases hc
    | some B =>
      rw [hA, hB] at hc
      cases hc
      obtain ⟨a1, -, a3, -⟩ := Fsm.canonize_spec h hA
      obtain ⟨b1, -, b3, -⟩ := Fsm.canonize_spec h2 hB
      have hn := fun p => canonize_tags_none h hA (p := p)
      have h0 := fun q => canonize_untagged ht hA q
      have S := shape a1 b1 hn h0 (fun p => canonize_tags_none h2 hB)
      have hl9 : ∀ c < 9, IsLetter c := fun c hc => ⟨by omega, by omega⟩
      have eA : ∀ c < 9, A.Equi c 0 := fun c hc => unused_equi h hnd hA (hl9 c hc) (hl9 0 (by omega)) (ho c hc).1 (ho 0 (by omega)).1
      have eB : ∀ c < 9, B.Equi c 0 := fun c hc => unused_equi h2 hnd2 hB (hl9 c hc) (hl9 0 (by omega)) (ho c hc).2 (ho 0 (by omega)).2
      have hs : Fsm.RESpec (series A B).prependAnything (series A B).prependAnything.removeEpsilons :=
        Fsm.removeEpsilons_spec (Fsm.WF.prependAnything (series_spec a1 b1 hn h0).1)
      generalize (series A B).prependAnything.removeEpsilons = f at *
      have hE : ∀ c < 9, ∀ q p, f.Edge q c p ↔ f.Edge q 0 p := by
        intro c hc q p
        rw [S.edge _ _ _ (hl9 c hc), S.edge _ _ _ (hl9 0 (by omega))]
        simp only [eA c hc _ _, eB c hc _ _]
      have hne : ∀ c < 9, ∀ q < f.size, ∃ p, f.Edge q c p := by
        intro c hc q hq
        rw [S.size] at hq
        by_cases q1 : q < A.size
        · obtain ⟨p, hp⟩ := a1.exists_edge q1 (hl9 c hc)
          exact ⟨p, (S.edge _ _ _ (hl9 c hc)).2 (.inl hp)⟩
        · by_cases q2 : q < A.size + B.size
          · obtain ⟨p, hp⟩ := b1.exists_edge (q := q - A.size) (by omega) (hl9 c hc)
            exact ⟨A.size + p, (S.edge _ _ _ (hl9 c hc)).2 (.inr (.inl ⟨by omega, by omega, by rw [Nat.add_sub_cancel_left]; exact hp⟩))⟩
          · exact ⟨A.size + B.size, (S.edge _ _ _ (hl9 c hc)).2 (.inr (.inr (.inr ⟨by omega, .inl rfl⟩)))⟩
      refine Fsm.letters_le S.wf.let_wf S.all fun c hc => ?_
      obtain ⟨r, hr⟩ := Option.isSome_iff_exists.1 ((hs.all c).2 (hl9 c hc))
      obtain ⟨r', hr'⟩ := Option.isSome_iff_exists.1 ((hs.all 0).2 (hl9 0 (by omega)))
      rw [hr, hr']
      obtain ⟨e, he1, rfl, hm⟩ := (hs.wf.let_wf.inv_iff _ _).1 hr
      obtain ⟨e', he2, rfl, hm'⟩ := (hs.wf.let_wf.inv_iff _ _).1 hr'
      congr 1
      refine hs.exact e he1 e' he2 fun q => ?_
      rw [hs.same _ _ hr, hs.same _ _ hr']
      have hdst : ∀ d < 9, ∀ p, p ∈ f.dst q d ↔ f.Edge q 0 p := by
        intro d hd p
        rw [← hE d hd]
        obtain ⟨r, hr⟩ := Option.isSome_iff_exists.1 ((hs.all d).2 (hl9 d hd))
        obtain ⟨e, he, rfl, hm⟩ := (hs.wf.let_wf.inv_iff _ _).1 hr
        rw [Fsm.edge_of_class hs.wf he hm]
        unfold Fsm.dst
        rw [hs.same _ _ hr]
      by_cases hlt : q < f.size
      · have hsome : ∀ d < 9, f.tr q d = some (f.dst q d) := by
          intro d hd
          obtain ⟨p, hp⟩ := hne 0 (by omega) q hlt
          have hp' := (hdst d hd p).2 hp
          unfold Fsm.dst at hp' ⊢
          cases htr : f.tr q d with
          | none => rw [htr] at hp'; exact absurd hp' (Finset.notMem_empty p)
          | some X => rfl
        rw [hsome c hc, hsome 0 (by omega)]
        congr 1
        ext p
        rw [hdst c hc, hdst 0 (by omega)]
      · have : ∀ d, f.tr q d = none := by
          intro d
          cases hd : f.tr q d with
          | none => rfl
          | some X => exact absurd (hs.wf.tr_lt _ _ _ hd).1 hlt
        rw [this, this]

end Adv
end Count
end Pire
