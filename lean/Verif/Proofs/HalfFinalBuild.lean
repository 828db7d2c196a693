import Verif.Proofs.HalfFinalRun

/-!
# The table of a half-final scanner
-/

namespace Pire
open Spec
namespace HalfFinal
open Multi
variable {P : Policy} {s : Multi} {T : Tbl}

/-- A table with other lists of regexps. -/
def withCounts (T : Tbl) (count : Nat → Nat) : Tbl := { T with acc := fun q => List.replicate (count q) 0 }

theorem puts_eq (l : List Nat) (r : Multi × Nat) : l.foldl (put P) r = shiftOut P l 0 r := rfl

theorem buildFinals_eq (count : Nat → Nat) (s0 : Multi) (hst : s.m.statesCount = T.n)
    (htab : ((withCounts T count).upto T.n).length ≤ s.m.finalTableSize) :
    ∃ W, buildFinals P count s = writes P s W ∧ Consistent P s.m (tblVal P s0 (withCounts T count)) W ∧
      (∀ x ∈ W, (∃ q, x.1 = .finalIndex q) ∨ ∃ j, x.1 = .final j) ∧
      (∀ q < T.n, ∃ v, (Cell.finalIndex q, v) ∈ W) ∧ ∀ j < ((withCounts T count).upto T.n).length, ∃ v, (Cell.final j, v) ∈ W := by
  obtain ⟨T', hT'⟩ : ∃ T', T' = withCounts T count := ⟨_, rfl⟩
  have hn' : T'.n = T.n := by rw [hT']; rfl
  have hacc : ∀ q, T'.acc q = List.replicate (count q) 0 := by intro q; rw [hT']; rfl
  rw [← hT'] at htab ⊢
  unfold buildFinals
  rw [hst]
  suffices h : ∀ n ≤ T.n, ∃ W, (List.range n).foldl (fun (r : Multi × Nat) q =>
      put P ((List.replicate (count q) 0).foldl (put P) (r.1.set P (.finalIndex q) r.2, r.2)) Multi.EndIdx) (s, 0) =
        (writes P s W, (T'.upto n).length) ∧
      Consistent P s.m (tblVal P s0 T') W ∧
      (∀ x ∈ W, (∃ q, x.1 = .finalIndex q) ∨ ∃ j, x.1 = .final j) ∧
      (∀ q < n, ∃ v, (Cell.finalIndex q, v) ∈ W) ∧ ∀ j < (T'.upto n).length, ∃ v, (Cell.final j, v) ∈ W by
    obtain ⟨W, h1, h2, h3, h4, h5⟩ := h T.n le_rfl
    exact ⟨W, by rw [h1], h2, h3, h4, h5⟩
  intro n hn
  induction n with
  | zero => exact ⟨[], rfl, Consistent.nil, by simp, by simp, by simp [Tbl.upto]⟩
  | succ n ih =>
    obtain ⟨W, h1, h2, h3, h4, h5⟩ := ih (by omega)
    rw [List.range_succ, List.foldl_append, h1, List.foldl_cons, List.foldl_nil]
    have hlen : (T'.upto (n + 1)).length ≤ (T'.upto T.n).length := (T'.upto_prefix hn).length_le
    have hul : (T'.upto (n + 1)).length = (T'.upto n).length + (T'.acc n ++ [EndIdx]).length := by rw [T'.upto_succ, List.length_append]
    have hroom : (T'.upto n).length + (T'.acc n ++ [EndIdx]).length ≤ s.m.finalTableSize := by omega
    have hget : ∀ i (hi : i < (T'.acc n ++ [EndIdx]).length),
        tblVal P s0 T' (.final ((T'.upto n).length + i)) = (T'.acc n ++ [EndIdx])[i] + 0 := fun i hi => by
      have := (T'.upto_get (n := T'.n) (by omega) hi).2
      rw [Nat.add_zero, ← this]; rfl
    have e : put P ((List.replicate (count n) 0).foldl (put P) ((writes P s W).set P (.finalIndex n) (T'.upto n).length, (T'.upto n).length)) EndIdx =
        shiftOut P (T'.acc n ++ [EndIdx]) 0 ((writes P s W).set P (.finalIndex n) (T'.upto n).length, (T'.upto n).length) := by
      rw [← puts_eq, List.foldl_append, hacc]; rfl
    simp only
    rw [e, ← show writes P (writes P s W) [(Cell.finalIndex n, (T'.upto n).length)] =
      (writes P s W).set P (.finalIndex n) (T'.upto n).length from by rw [writes_cons, writes_nil], ← writes_append]
    obtain ⟨WA, a1, a2, a3, a4⟩ := shiftOut_eq (P := P) (tblVal P s0 T') (T'.acc n ++ [EndIdx]) 0
      (writes P s (W ++ [(Cell.finalIndex n, (T'.upto n).length)])) (T'.upto n).length (by rw [writes_m]; exact hroom) hget
    rw [a1, ← writes_append]
    rw [writes_m] at a2
    refine ⟨_, by rw [hul], (h2.append (Consistent.cons (show Ok P s.m (.finalIndex n) from (by show n < s.m.statesCount; omega)) rfl Consistent.nil)).append a2, ?_, ?_, ?_⟩
    · intro x hx
      simp only [List.mem_append, List.mem_cons, List.not_mem_nil, or_false] at hx
      rcases hx with (hx | rfl) | hx
      · exact h3 x hx
      · exact .inl ⟨_, rfl⟩
      · exact .inr (a3 x hx)
    · intro q hq
      by_cases hqn : q = n
      · subst hqn
        exact ⟨(T'.upto q).length, by simp⟩
      · obtain ⟨v, hv⟩ := h4 q (by omega)
        exact ⟨v, by simp [hv]⟩
    · intro j hj
      rw [hul] at hj
      by_cases hj1 : j < (T'.upto n).length
      · obtain ⟨v, hv⟩ := h5 j hj1
        exact ⟨v, by simp [hv]⟩
      · obtain ⟨v, hv⟩ := a4 (j - (T'.upto n).length) (by omega)
        rw [show (T'.upto n).length + (j - (T'.upto n).length) = j by omega] at hv
        exact ⟨v, by simp [hv]⟩

theorem buildFinals_repr {count : Nat → Nat} (hP : P.Real) (h : Repr P s T) (hbig : s.m.finalTableSize < 2 ^ 32)
    (htab : ((withCounts T count).upto T.n).length ≤ s.m.finalTableSize) :
    Repr P (buildFinals P count s) (withCounts T count) ∧ (buildFinals P count s).rest = s.rest := by
  obtain ⟨W, e, h2, h3, h4, h5⟩ := buildFinals_eq (P := P) count s h.states htab
  obtain ⟨T', hT'⟩ : ∃ T', T' = withCounts T count := ⟨_, rfl⟩
  rw [← hT'] at h2 h5 htab
  have hn' : T'.n = T.n := by rw [hT']; rfl
  have hwf : T'.Wf := by
    subst hT'
    refine ⟨h.wf.q0_lt, h.wf.δ_lt, h.wf.cls_lt, h.wf.onto, ?_⟩
    intro q _ x hx
    rw [(List.mem_replicate.1 hx).2]
    unfold EndIdx; norm_num
  have hm : (writes P s W).m = s.m := writes_m ..
  have hix : ∀ q, (writes P s W).indexToState P q = s.indexToState P q := indexToState_congr (rest_writes s W)
  have hkeep : ∀ c, Ok P s.m c → (∀ q, c ≠ .finalIndex q) → (∀ j, c ≠ .final j) → (writes P s W).get P c = s.get P c := by
    intro c hc k1 k2
    refine writes_get_keep h2 hc ?_
    intro x hx hxc
    rcases h3 x hx with ⟨q, hq⟩ | ⟨q, hq⟩
    · exact k1 q (by rw [← hxc, hq])
    · exact k2 q (by rw [← hxc, hq])
  have hfi : ∀ q < T'.n, (writes P s W).get P (.finalIndex q) = (T'.upto q).length := by
    intro q hq
    rw [writes_get_val h2 (h4 q (by omega))]
    apply Nat.mod_eq_of_lt
    have := (T'.upto_prefix (Nat.le_of_lt hq)).length_le
    rw [hn'] at this
    show (T'.upto q).length < 256 ^ 8
    omega
  have hfin : ∀ j < (T'.upto T'.n).length, (writes P s W).get P (.final j) = (T'.upto T'.n).getD j 0 := by
    intro j hj
    rw [writes_get_val h2 (h5 j (by rw [← hn']; exact hj))]
    apply Nat.mod_eq_of_lt
    show (T'.upto T'.n).getD j 0 < 256 ^ 8
    rw [List.getD_eq_getElem _ _ hj]
    have : (T'.upto T'.n)[j] ∈ T'.upto T'.n := List.getElem_mem hj
    obtain ⟨q, hq, hx⟩ := List.mem_flatMap.1 this
    rcases List.mem_append.1 hx with hx | hx
    · have := hwf.acc_lt q (List.mem_range.1 hq) _ hx
      unfold EndIdx at this; omega
    · rw [List.mem_singleton.1 hx]; unfold EndIdx; omega
  rw [e, ← hT']
  refine ⟨⟨⟨hwf, by rw [hm, writes_base]; exact h.fits, by rw [hm, h.states, hn'], by rw [hm, h.letters, hT']; rfl,
    by rw [hm, h.regexps, hT']; rfl, by rw [hm, hix, h.initial, hT']; rfl, ?_, ?_, ?_, ?_⟩, ?_⟩, rest_writes s W⟩
  · intro c hc
    rw [hkeep _ (show Ok P s.m (.letter c) from hc.1) (by simp) (by simp), h.letter c hc, hT']; rfl
  · intro q hq k hk
    have hk' : k < T.L := by rw [hT'] at hk; exact hk
    have hok : Ok P s.m (.slot q (P.headerSize + k)) := by
      refine ⟨by rw [h.states]; omega, by omega, ?_⟩
      have := rowSize_ge P s.m
      rw [h.letters] at this
      omega
    rw [hix, hix, hkeep _ hok (by simp) (by simp), h.jump q (by omega) k hk', hT']
    rfl
  · intro q hq
    rw [hkeep _ (show Ok P s.m (.flags q) from by show q < s.m.statesCount; rw [h.states]; omega) (by simp) (by simp), h.flags q (by omega), hT']; rfl
  · intro q hq
    refine ⟨?_, ?_, ?_⟩
    · rw [hfi q hq, hm]
      have := (T'.upto_get hq (i := (T'.acc q).length) (by simp)).1
      rw [hn'] at this
      omega
    · intro i hlt
      have := T'.upto_get hq (i := i) (by simp; omega)
      rw [hfi q hq, hfin _ this.1, this.2, List.getElem_append_left hlt]
    · have := T'.upto_get hq (i := (T'.acc q).length) (by simp)
      rw [hfi q hq, hfin _ this.1, this.2, List.getElem_append_right (by omega)]
      simp
  · intro hne q hq
    have hm2 : P.masks = 2 := hP.resolve_left hne
    have hmask : ∀ i j, i < 2 → j < 4 → (writes P s W).get P (.mask q i j) = s.get P (.mask q i j) := by
      intro i j hi hj
      exact hkeep _ (show _ ∧ _ by rw [h.states]; exact ⟨by omega, by omega, hj⟩) (by simp) (by simp)
    have hstep : ∀ c, T'.step q c = T.step q c := by intro c; rw [hT']; rfl
    rcases h.masks hne q (by omega) with ⟨k1, k2⟩ | k1 | ⟨a, b, ha, hb, k1, k2, k3⟩
    · exact .inl ⟨fun j hj => by rw [hmask 0 j (by omega) hj]; exact k1 j hj, fun c hc => by rw [hstep]; exact k2 c hc⟩
    · exact .inr (.inl fun j hj => by rw [hmask 0 j (by omega) hj]; exact k1 j hj)
    · exact .inr (.inr ⟨a, b, ha, hb, fun j hj => by rw [hmask 0 j (by omega) hj]; exact k1 j hj,
        fun j hj => by rw [hmask 1 j (by omega) hj]; exact k2 j hj, fun c hc h1 h2 => by rw [hstep]; exact k3 c hc h1 h2⟩)

end HalfFinal
end Pire
