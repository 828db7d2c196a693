import Verif.Proofs.AdvStep2

/-! # The full task counts the longest series when matches and separators have no characters in common -/

namespace Pire
namespace Count
namespace Adv

open Spec Counting

variable {A B f : Fsm}

theorem ends_last {re sep : Language Nat} {k : Nat} {x : List Nat} (h : Ends re sep k x) : ∃ y w, x = y ++ w ∧ w ∈ re ∧ (k = 1 ∨ Lead re sep (k - 1) y) := by
  obtain ⟨y, u, rfl, hu⟩ := h
  cases hu with
  | one hw => exact ⟨y, u, rfl, hw, .inl rfl⟩
  | @more k u s w hu hs hw =>
    exact ⟨y ++ u ++ s, w, by simp, hw, .inr (.inr ⟨y ++ u, s, rfl, ⟨y, u, rfl, hu⟩, hs⟩)⟩

section Steps

variable (S : Shape A B f) (H : Apart A.Lang B.Lang)
include S

/-- States from which a match can be reached are not dead ends. -/
theorem live_a (hs : ∃ w, w ∈ B.Lang) {y v : List Nat} {q : Nat} (hy : IsWord y) (hv : v ≠ []) (hr : Run A.Edge A.initial v q) (hw : ∃ w, w ∈ A.LangFrom q) :
    q ∉ f.deadStates := by
  intro hd
  rcases ((Fsm.mem_deadStates S.wf S.coh q).1 hd).2 with h | h
  · exact h ⟨_, run_search S hy hv hr⟩
  · obtain ⟨w, r, hrf, hw⟩ := hw
    obtain ⟨w', hw'⟩ := hs
    obtain ⟨r', hr', hw'⟩ := final_lang S (.inl hrf) hw'
    exact h ⟨w ++ w', r', hr', (run_inner S hw).trans hw'⟩

/-- States from which the end of a separator can be reached are not dead ends. -/
theorem live_b {y u v : List Nat} {d : Nat} (hy : IsWord y) (hu : u ∈ A.Lang) (hu0 : u ≠ []) (hv : v ≠ []) (hr : Run B.Edge B.initial v d) (hw : ∃ w, w ∈ B.LangFrom d) :
    A.size + d ∉ f.deadStates := by
  intro hd
  rcases ((Fsm.mem_deadStates S.wf S.coh _).1 hd).2 with h | h
  · obtain ⟨q, hq, hu⟩ := hu
    cases v with
    | nil => exact hv rfl
    | cons c v =>
      obtain ⟨i, e, e1, e2, e3, e4⟩ := Run.cons_inv hr
      have e0 : B.initial = i := run_nil (fun _ _ => S.det.2.no_eps) e1
      subst e0
      have hl : IsLetter c := ⟨(S.det.2.wf.edge_lt e3).2.1, e2⟩
      refine h ⟨_, (run_search S hy hu0 hu).trans (.step e2 ((S.edge q c (A.size + e) hl).2 (.inr (.inr (.inl ⟨hq, by omega, ?_⟩)))) (run_shift S e4))⟩
      rw [Nat.add_sub_cancel_left]
      exact e3
  · obtain ⟨w, r, hrf, hw⟩ := hw
    exact h ⟨w, A.size + r, (S.finals _).2 (.inl ⟨by omega, by rw [Nat.add_sub_cancel_left]; exact hrf⟩), run_shift S hw⟩

include H

/-- What a step does to the state and the counter. -/
structure Moves (A B f : Fsm) (n : Nat) (s : St) (c : Nat) (n' : Nat) (s' : St) : Prop where
  form : Form A B n' s'
  /-- on in a match -/
  inner : ∀ q p, A.Edge q c p → p ∉ f.deadStates → Occurs A.Lang c →
    ((q, 2) ∈ s.unmatched → (p, 2) ∈ s'.unmatched ∧ n' = n) ∧
    ((q, 4) ∈ s.unmatched → q < A.size → ((p, 4) ∈ s'.unmatched ∧ n' = n) ∨ ((p, 2) ∈ s'.unmatched ∧ n' = n + 1))
  /-- from a match to a separator -/
  leave : ∀ d, B.Edge B.initial c d → A.size + d ∉ f.deadStates → Occurs B.Lang c → ∀ x ∈ s.any, x.1 ∈ A.finals →
    (A.size + d, 4) ∈ s'.unmatched ∧ 1 ≤ n' ∧ (x ∈ s.unmatched → n ≤ n')
  /-- on in a separator -/
  sep : ∀ d p, B.Edge d c p → A.size + p ∉ f.deadStates → Occurs B.Lang c → (A.size + d, 4) ∈ s.unmatched →
    (A.size + p, 4) ∈ s'.unmatched ∧ n' = n
  /-- from a separator to a match -/
  enter : ∀ d p, d ∈ B.finals → A.Edge A.initial c p → p ∉ f.deadStates → Occurs A.Lang c → (A.size + d, 4) ∈ s.unmatched →
    ((p, 4) ∈ s'.unmatched ∧ n' = n) ∨ ((p, 2) ∈ s'.unmatched ∧ n' = n + 1)

theorem moves {n : Nat} {t : List Nat} {s : St} {c : Nat} (h : Sane A B f n t s) (hf : Form A B n s) (hc : IsLetter c) :
    Moves A B f n s c (count n (transitionTag ((full f A.initial).prepare s (f.letters.representative c)))) (settle ((full f A.initial).prepare s (f.letters.representative c))) := by
  have hmk := h.marked (.inr H.re)
  cases hf with
  | zero hn =>
    obtain ⟨z1, z2, z3⟩ := h.zero hn
    refine ⟨form_zero S H h hn hc, fun q p _ _ _ => ⟨fun hq => ?_, fun hq => ?_⟩, fun d _ _ _ x hx hxf => ?_, fun d p _ _ _ hd => ?_, fun d p _ _ _ _ hd => ?_⟩
    · exact absurd (z3 _ hq) (by simp)
    · exact absurd (z3 _ hq) (by simp)
    · exfalso
      have h2 := hmk x hx ((tag_iff S H _).1.2 hxf)
      rcases mem_any.1 hx with hx | hx | hx | hx
      · rw [h.inv.matched] at hx; exact absurd hx (Finset.notMem_empty x)
      · have := z3 x hx; omega
      · rw [z1] at hx; exact absurd hx (Finset.notMem_empty x)
      · rw [z2] at hx; exact absurd hx (Finset.notMem_empty x)
    · exact absurd (z3 _ hd) (by simp)
    · exact absurd (z3 _ hd) (by simp)
  | inMatch h1 h2 h3 h4 =>
    by_cases hn : Occurs B.Lang c
    · obtain ⟨g1, g2⟩ := match_sep S H h hc hn h1 h2 h3 h4
      refine ⟨g1, fun q p _ _ ho => absurd hn (H.apart c ho), fun d he hd _ x hx hxf => g2 d he hd x hx hxf, fun d p _ _ _ hd => ?_, fun d p _ _ _ ho => absurd hn (H.apart c ho)⟩
      exact absurd (h3 _ hd).1 (by simp)
    · obtain ⟨g1, g2⟩ := match_other S H h hc hn h1 h2 h3 h4
      refine ⟨g1, fun q p he hd _ => ⟨fun hq => g2 q p hq he hd, fun hq => ?_⟩, fun d _ _ ho => absurd ho hn, fun d p _ _ ho => absurd ho hn, fun d p _ _ _ _ hd => ?_⟩
      · exact absurd (h3 _ hq).1 (by simp)
      · exact absurd (h3 _ hd).1 (by simp)
  | lead q h1 h2 hq h3 h4 =>
    by_cases hn : Occurs B.Lang c
    · obtain ⟨g1, g2⟩ := lead_sep S H h hc hn h2 hq h3 h4
      refine ⟨g1, fun q p _ _ ho => absurd hn (H.apart c ho), fun d he hd _ x hx hxf => g2 d he hd x hx hxf, fun d p _ _ _ hd => ?_, fun d p _ _ _ ho => absurd hn (H.apart c ho)⟩
      rw [h3, Finset.mem_singleton, Prod.mk.injEq] at hd
      omega
    · obtain ⟨g1, g2⟩ := lead_other S H h hc hn h1 h2 hq h3 h4
      refine ⟨g1, fun q' p he hd _ => ⟨fun hq' => ?_, fun hq' _ => ?_⟩, fun d _ _ ho => absurd ho hn, fun d p _ _ ho => absurd ho hn, fun d p _ _ _ _ hd => ?_⟩
      · rw [h3, Finset.mem_singleton, Prod.mk.injEq] at hq'
        exact absurd hq'.2 (by decide)
      · rw [h3, Finset.mem_singleton, Prod.mk.injEq] at hq'
        rw [hq'.1] at he
        exact g2 p he hd
      · rw [h3, Finset.mem_singleton, Prod.mk.injEq] at hd
        omega
  | sep d h1 h2 hd hd2 h3 h4 =>
    by_cases hn : Occurs B.Lang c
    · obtain ⟨g1, g2⟩ := sep_sep S H h hc hn h1 h2 hd hd2 h3 h4
      refine ⟨g1, fun q p _ _ ho => absurd hn (H.apart c ho), fun d' he hd' _ x hx hxf => ?_, fun d' p he hp _ hd' => ?_, fun d p _ _ _ ho => absurd hn (H.apart c ho)⟩
      · exfalso
        have hlt := S.det.1.wf.fin_lt _ hxf
        rcases mem_any.1 hx with hx | hx | hx | hx
        · rw [h.inv.matched] at hx; exact absurd hx (Finset.notMem_empty x)
        · rw [h3, Finset.mem_singleton] at hx; subst hx; dsimp only at hlt; omega
        · rw [h2] at hx; exact absurd hx (Finset.notMem_empty x)
        · rw [h4 x hx] at hlt; unfold top at hlt; dsimp only at hlt; omega
      · rw [h3, Finset.mem_singleton, Prod.mk.injEq] at hd'
        refine g2 p ?_ hp
        rw [← hd'.1, Nat.add_sub_cancel_left]
        exact he
    · obtain ⟨g1, g2⟩ := sep_other S H h hc hn h1 h2 hd hd2 h3 h4
      refine ⟨g1, fun q' p he hd' _ => ⟨fun hq' => ?_, fun hq' hlt => ?_⟩, fun d _ _ ho => absurd ho hn, fun d p _ _ ho => absurd ho hn, fun d' p hf he hp _ hd' => ?_⟩
      · rw [h3, Finset.mem_singleton, Prod.mk.injEq] at hq'
        exact absurd hq'.2 (by decide)
      · rw [h3, Finset.mem_singleton, Prod.mk.injEq] at hq'
        omega
      · rw [h3, Finset.mem_singleton, Prod.mk.injEq] at hd'
        refine g2 p ?_ he hp
        rw [← hd'.1, Nat.add_sub_cancel_left]
        exact hf

/-- Every series is reflected in the counter. -/
structure Complete (A B : Fsm) (n : Nat) (t : List Nat) (s : St) : Prop where
  inner : ∀ k y v q, 1 ≤ k → t = y ++ v → v ≠ [] → Lead A.Lang B.Lang k y → Run A.Edge A.initial v q → (∃ w, w ∈ A.LangFrom q) →
    ((q, 4) ∈ s.unmatched ∧ k ≤ n) ∨ ((q, 2) ∈ s.unmatched ∧ k + 1 ≤ n)
  sep : ∀ k y v d, 1 ≤ k → t = y ++ v → v ≠ [] → Ends A.Lang B.Lang k y → Run B.Edge B.initial v d → (∃ w, w ∈ B.LangFrom d) →
    (A.size + d, 4) ∈ s.unmatched ∧ k ≤ n

/-- The counter at the end of a series. -/
theorem complete_ends (hs : ∃ w, w ∈ B.Lang) {n : Nat} {t : List Nat} {s : St} (h : Sane A B f n t s) (hw : IsWord t) (hc : Complete A B n t s) {k : Nat} (hk : 1 ≤ k) (he : Ends A.Lang B.Lang k t) :
    ∃ q ∈ A.finals, (q, 2) ∈ s.any ∧ k ≤ n ∧ (k = 1 ∨ (q, 2) ∈ s.unmatched) := by
  obtain ⟨y, w, rfl, hwl, hl⟩ := ends_last he
  have hw0 : w ≠ [] := fun h0 => H.re (h0 ▸ hwl)
  obtain ⟨q, hq, hr⟩ := hwl
  have hsf := sane_final S h (.inr H.re) (run_search S (fun c hc => hw c (List.mem_append_left _ hc)) hw0 hr) (.inl hq) hs
  by_cases h1 : k = 1
  · exact ⟨q, hq, hsf.1, by omega, .inl h1⟩
  · have hl := hl.resolve_left h1
    rcases hc.inner (k - 1) y w q (by omega) rfl hw0 hl hr ⟨[], q, hq, .refl _⟩ with ⟨g1, g2⟩ | ⟨g1, g2⟩
    · have := h.marked (.inr H.re) (q, 4) (mem_any.2 (.inr (.inl g1))) ((tag_iff S H q).1.2 hq)
      exact absurd this (by simp)
    · exact ⟨q, hq, hsf.1, by omega, .inr g1⟩

theorem complete_step (hs : ∃ w, w ∈ B.Lang) {n : Nat} {t : List Nat} {s : St} {c n' : Nat} {s' : St} (h : Sane A B f n t s) (hw : IsWord t) (hl : IsLetter c)
    (hm : Moves A B f n s c n' s') (hc : Complete A B n t s) : Complete A B n' (t ++ [c]) s' := by
  have hlang : ∀ {u}, u ∈ A.Lang → u ≠ [] := fun hu h0 => H.re (h0 ▸ hu)
  constructor
  · intro k y v q hk ht hv hlead hr hco
    obtain ⟨v', c', rfl⟩ : ∃ v' c', v = v' ++ [c'] := by
      rcases List.eq_nil_or_concat v with h | ⟨v', c', h⟩
      · exact absurd h hv
      · exact ⟨v', c', by rw [h, List.concat_eq_append]⟩
    rw [← List.append_assoc] at ht
    obtain ⟨ht', hcc⟩ := List.append_inj' ht rfl
    clear ht
    rename' ht' => ht
    obtain rfl : c = c' := by simpa using hcc
    clear hcc
    obtain ⟨b, hb, hbe⟩ := Run.split hr
    obtain ⟨b', r, e1, e2, e3, e4⟩ := Run.cons_inv hbe
    obtain rfl := run_nil (fun _ _ => S.det.1.no_eps) e1
    obtain rfl := run_nil (fun _ _ => S.det.1.no_eps) e4
    have hy : IsWord y := fun x hx => hw x (by rw [ht]; exact List.mem_append_left _ hx)
    have hlive := live_a S hs hy hv hr hco
    have hocc : Occurs A.Lang c := occurs_of_run hb e2 e3 hco
    by_cases hv' : v' = []
    · subst hv'
      obtain rfl := run_nil (fun _ _ => S.det.1.no_eps) hb
      rw [List.append_nil] at ht
      subst ht
      obtain ⟨y', u, rfl, hy', hu⟩ := hlead.resolve_left (by omega)
      have hu0 : u ≠ [] := fun h0 => H.sep (h0 ▸ hu)
      obtain ⟨d, hd, hdr⟩ := hu
      obtain ⟨g1, g2⟩ := hc.sep k y' u d hk rfl hu0 hy' hdr ⟨[], d, hd, .refl _⟩
      rcases hm.enter d _ hd e3 hlive hocc g1 with ⟨g3, g4⟩ | ⟨g3, g4⟩
      · exact .inl ⟨g3, by omega⟩
      · exact .inr ⟨g3, by omega⟩
    · have hcob : ∃ w, w ∈ A.LangFrom b := by
        obtain ⟨w, r, hr, hw⟩ := hco
        exact ⟨c :: w, r, hr, .step e2 e3 hw⟩
      obtain ⟨m1, m2⟩ := hm.inner b _ e3 hlive hocc
      rcases hc.inner k y v' b hk ht hv' hlead hb hcob with ⟨g1, g2⟩ | ⟨g1, g2⟩
      · rcases m2 g1 (S.det.1.wf.edge_lt e3).1 with ⟨g3, g4⟩ | ⟨g3, g4⟩
        · exact .inl ⟨g3, by omega⟩
        · exact .inr ⟨g3, by omega⟩
      · obtain ⟨g3, g4⟩ := m1 g1
        exact .inr ⟨g3, by omega⟩
  · intro k y v d hk ht hv hends hr hco
    obtain ⟨v', c', rfl⟩ : ∃ v' c', v = v' ++ [c'] := by
      rcases List.eq_nil_or_concat v with h | ⟨v', c', h⟩
      · exact absurd h hv
      · exact ⟨v', c', by rw [h, List.concat_eq_append]⟩
    rw [← List.append_assoc] at ht
    obtain ⟨ht', hcc⟩ := List.append_inj' ht rfl
    clear ht
    rename' ht' => ht
    obtain rfl : c = c' := by simpa using hcc
    clear hcc
    obtain ⟨b, hb, hbe⟩ := Run.split hr
    obtain ⟨b', r, e1, e2, e3, e4⟩ := Run.cons_inv hbe
    obtain rfl := run_nil (fun _ _ => S.det.2.no_eps) e1
    obtain rfl := run_nil (fun _ _ => S.det.2.no_eps) e4
    have hlive : A.size + r ∉ f.deadStates := by
      obtain ⟨y0, w, rfl, hwl, -⟩ := ends_last hends
      exact live_b S (y := y0) (fun x hx => hw x (by rw [ht]; simp [hx])) hwl (hlang hwl) hv hr hco
    have hocc : Occurs B.Lang c := occurs_of_run hb e2 e3 hco
    by_cases hv' : v' = []
    · subst hv'
      obtain rfl := run_nil (fun _ _ => S.det.2.no_eps) hb
      rw [List.append_nil] at ht
      subst ht
      obtain ⟨q, hq, g1, g2, g3⟩ := complete_ends S H hs h hw hc hk hends
      obtain ⟨m1, m2, m3⟩ := hm.leave _ e3 hlive hocc _ g1 hq
      refine ⟨m1, ?_⟩
      rcases g3 with g3 | g3
      · omega
      · exact g2.trans (m3 g3)
    · have hcob : ∃ w, w ∈ B.LangFrom b := by
        obtain ⟨w, r, hr, hw⟩ := hco
        exact ⟨c :: w, r, hr, .step e2 e3 hw⟩
      obtain ⟨g1, g2⟩ := hc.sep k y v' b hk ht hv' hends hb hcob
      obtain ⟨g3, g4⟩ := hm.sep b _ e3 hlive hocc g1
      exact ⟨g3, by omega⟩

theorem complete_after (hs : ∃ w, w ∈ B.Lang) {t : List Nat} (ht : ∀ c ∈ t, Plain c) :
    Form A B (counter 0 ((full f A.initial).acts f (full f A.initial).initial t)) ((full f A.initial).after f (full f A.initial).initial t) ∧
    Complete A B (counter 0 ((full f A.initial).acts f (full f A.initial).initial t)) t ((full f A.initial).after f (full f A.initial).initial t) := by
  induction t using List.reverseRecOn with
  | nil =>
    refine ⟨.zero rfl, ⟨fun k y v q _ h hv => ?_, fun k y v q _ h hv => ?_⟩⟩
    · exact absurd (List.append_eq_nil_iff.1 h.symm).2 hv
    · exact absurd (List.append_eq_nil_iff.1 h.symm).2 hv
  | append_singleton t c ih =>
    have hc := ht c (by simp)
    have htt : ∀ c ∈ t, Plain c := fun x hx => ht x (List.mem_append_left _ hx)
    obtain ⟨i1, i2⟩ := ih htt
    have hsane := sane_after S hs htt
    rw [acts_snoc, counter_snoc, after_snoc, next_full (plain_valid S hc)]
    generalize (full f A.initial).after f (full f A.initial).initial t = s at *
    generalize counter 0 ((full f A.initial).acts f (full f A.initial).initial t) = n at *
    have ha : (full f A.initial).action f s (f.letters.representative c) = transitionTag ((full f A.initial).prepare s (f.letters.representative c)) := by
      unfold Kind.action
      rw [plain_valid S hc, if_neg Bool.false_ne_true]
      rfl
    rw [ha]
    have hm := moves S H hsane i1 (plain_letter hc)
    exact ⟨hm.form, complete_step S H hs hsane (fun x hx => plain_letter (htt x hx)) (plain_letter hc) hm i2⟩

/-- The counter reaches the length of every series. -/
theorem counter_complete (hs : ∃ w, w ∈ B.Lang) {t : List Nat} (ht : ∀ c ∈ t, Plain c) {k : Nat} (h : HasSeries A.Lang B.Lang t k) :
    ∃ u, u <+: t ∧ k ≤ counter 0 ((full f A.initial).acts f (full f A.initial).initial u) := by
  by_cases hk : k = 0
  · exact ⟨[], List.nil_prefix, by omega⟩
  obtain ⟨u, ⟨y, z, rfl⟩, hu⟩ := h.resolve_left hk
  have hp : ∀ c ∈ y ++ u, Plain c := fun c hc => ht c (List.mem_append_left _ hc)
  refine ⟨y ++ u, List.prefix_append _ _, ?_⟩
  obtain ⟨q, -, -, g, -⟩ := complete_ends S H hs (sane_after S hs hp) (fun c hc => plain_letter (hp c hc)) (complete_after S H hs hp).2 (k := k) (by omega) ⟨y, u, rfl, hu⟩
  exact g

/-- The counter shows the length of the longest series. -/
theorem counter_exact (hs : ∃ w, w ∈ B.Lang) {t : List Nat} (ht : ∀ c ∈ t, Plain c) {k : Nat}
    (hk : MaxRun (((full f A.initial).acts f (full f A.initial).initial t).flatMap advancedOps) k) : LongestSeries A.Lang B.Lang t k := by
  refine ⟨counter_sound S false ht hk, fun j hj => ?_⟩
  obtain ⟨u, hu, hle⟩ := counter_complete S H hs ht hj
  exact hle.trans ((maxRun_counter hk).2 _ (acts_of_prefix _ _ _ hu))

end Steps

end Adv
end Count
end Pire
