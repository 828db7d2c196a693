import Verif.Proofs.CountSquare
import Verif.Proofs.CountSep

/-!
# The constructor of `CountingScanner`: the machine of the scanner, word by word
-/

namespace Pire

open Spec

/-- `Determine` of an automaton that is deterministic already: the states stand for single states, outputs are kept. -/
theorem Fsm.det_functional {g : Fsm} (h : g.WF) (hraw : g.Raw) (hnd : g.determined = false) (hne : ∀ q, g.tr q 257 = none) {δ : Nat → Nat → Nat}
    (hδ : ∀ q < g.size, ∀ c, IsLetter c → ∀ p, g.Edge q c p ↔ p = δ q c) (hok : g.determine.2 = true) :
    g.determine.1.Det ∧ ∃ μ : Nat → Nat, μ g.determine.1.initial = g.initial ∧ ∀ k < g.determine.1.size, μ k < g.size ∧ ∀ c, IsLetter c →
      g.determine.1.machine.step k c < g.determine.1.size ∧ μ (g.determine.1.machine.step k c) = δ (μ k) c ∧
      g.determine.1.machine.out k c = g.output (μ k) (δ (μ k) c) := by
  have hs := removeEpsilons_spec h
  have hout := Fsm.removeEpsilons_outputs hraw hne
  have hedge : ∀ q < g.size, ∀ c, IsLetter c → ∀ p, g.removeEpsilons.Edge q c p ↔ p = δ q c := by
    intro q hq c hc p
    rw [hs.edge, ← hδ q hq c hc]
    constructor
    · rintro ⟨-, q', hr, he⟩
      have : q' = q := by
        cases hr with
        | refl => rfl
        | eps e _ =>
          rw [edge_iff, key_raw hraw] at e
          simp [Fsm.dst, hne] at e
      rw [this] at he; exact he
    · intro he; exact ⟨hc.2, q, .refl _, he⟩
  have hδlt : ∀ q < g.size, ∀ c, IsLetter c → δ q c < g.size := fun q hq c hc => (h.edge_lt ((hδ q hq c hc _).2 rfl)).2.2
  obtain ⟨r1, r2⟩ := DTask.run_spec (t := g.removeEpsilons.determineTask) hs.wf.let_wf (if 0 ≠ 0 then 0 else 200000)
  cases hrun : g.removeEpsilons.determineTask.run (if 0 ≠ 0 then 0 else 200000) with
  | none =>
    have : (g.determine 0).2 = false := by
      unfold Fsm.determine
      rw [if_neg (by simp [hnd])]
      simp only [hrun]
    rw [this] at hok; cases hok
  | some r =>
    obtain ⟨states, conns⟩ := r
    have hR := r1 states conns hrun
    have hD : (g.determine 0).1 = Fsm.swapFrom g.removeEpsilons (g.removeEpsilons.buildDetermined states conns) := by
      unfold Fsm.determine
      rw [if_neg (by simp [hnd])]
      simp only [hrun]
    rw [hD]
    have hdet := build_det hs hR
    obtain ⟨b1, b2, b3, b4, b5, b6⟩ := build_fields g.removeEpsilons states conns
    have hlet : ∀ e ∈ g.removeEpsilons.letters.set, IsLetter e.rep := fun e he =>
      (hs.all e.rep).1 (by rw [hs.wf.let_wf.inv_of_mem he (hs.wf.let_wf.rep_mem e he)]; rfl)
    have hsucc : ∀ q < g.size, ∀ e ∈ g.removeEpsilons.letters.set, ∀ p, p ∈ g.removeEpsilons.dst q e.rep ↔ p = δ q e.rep := by
      intro q hq e he p
      rw [← edge_of_class hs.wf he (hs.wf.let_wf.rep_mem e he)]
      exact hedge q hq _ (hlet e he) p
    have hδcls : ∀ q < g.size, ∀ e ∈ g.removeEpsilons.letters.set, ∀ c ∈ e.members, IsLetter c → δ q c = δ q e.rep := by
      intro q hq e he c hm hc
      have h1 := (hedge q hq c hc _).2 rfl
      rw [edge_of_class hs.wf he hm, hsucc q hq e he] at h1
      exact h1
    have hsing : ∀ s, g.removeEpsilons.determineTask.Reach s → ∃ q < g.size, s = {q} := by
      intro s hr
      induction hr with
      | init => exact ⟨g.initial, h.init_lt, by show {g.removeEpsilons.initial} = _; rw [hs.initial]⟩
      | @step s e _ _ he ih =>
        obtain ⟨q, hq, rfl⟩ := ih
        refine ⟨δ q e.rep, hδlt q hq _ (hlet e he), ?_⟩
        ext p
        rw [hs.next_mem he, Finset.mem_singleton]
        simp only [Finset.mem_singleton, exists_eq_left]
        exact hsucc q hq e he p
    have hstate : ∀ k < states.length, ∃ q < g.size, states[k]? = some {q} := by
      intro k hk
      obtain ⟨q, hq, he⟩ := hsing _ ((hR.mem _).1 (List.getElem_mem hk))
      exact ⟨q, hq, by rw [List.getElem?_eq_getElem hk, he]⟩
    refine ⟨hdet.swapFrom, fun k => (elems (states.getD k ∅)).headD 0, ?_, ?_⟩
    · have h0 := hR.zero
      show (elems (states.getD (g.removeEpsilons.buildDetermined states conns).initial ∅)).headD 0 = _
      rw [b2, List.getD_eq_getElem?_getD, h0]
      show (elems {g.removeEpsilons.initial}).headD 0 = _
      rw [elems_singleton, hs.initial]; rfl
    · intro k hk
      have hk' : k < states.length := by
        have : k < (g.removeEpsilons.buildDetermined states conns).size := hk
        omega
      obtain ⟨q, hq, hks⟩ := hstate k hk'
      have hμ : (elems (states.getD k ∅)).headD 0 = q := by
        rw [List.getD_eq_getElem?_getD, hks]
        show (elems {q}).headD 0 = q
        rw [elems_singleton]; rfl
      simp only [hμ]
      refine ⟨hq, fun c hc => ?_⟩
      obtain ⟨r, hr⟩ := Option.isSome_iff_exists.1 ((hs.all c).2 hc)
      obtain ⟨e, he, rfl, hm⟩ := (hs.wf.let_wf.inv_iff _ _).1 hr
      obtain ⟨p, hp1, hp2, hp3⟩ := build_rows hs hR hks he
      have hps : states[p]? = some {δ q c} := by
        rw [hδcls q hq e he c hm hc]
        split at hp3
        · rename_i ht
          obtain ⟨j, hj, hjt⟩ := ht
          rw [Finset.mem_singleton] at hj
          subst hj
          unfold terminalStates at hjt
          have h3 := (Finset.mem_filter.1 hjt).2 e he
          rw [hsucc j hq e he] at h3
          rw [hp3, ← h3]; exact hks
        · rw [hp3]
          congr 1
          ext y
          rw [hs.next_mem he, Finset.mem_singleton]
          simp only [Finset.mem_singleton, exists_eq_left]
          exact hsucc q hq e he y
      have hrep : (g.removeEpsilons.buildDetermined states conns).letters.representative c = e.rep := by
        rw [b3]; unfold Partition.representative; rw [hr]; rfl
      have hfd : (g.removeEpsilons.buildDetermined states conns).firstDst k e.rep = p := by
        unfold firstDst
        have : (g.removeEpsilons.buildDetermined states conns).dst k e.rep = {p} := by
          ext y; rw [hp1, Finset.mem_singleton]
        rw [this, elems_singleton]; rfl
      have hstep : (Fsm.swapFrom g.removeEpsilons (g.removeEpsilons.buildDetermined states conns)).machine.step k c = p := by
        show (g.removeEpsilons.buildDetermined states conns).firstDst k ((g.removeEpsilons.buildDetermined states conns).letters.representative c) = p
        rw [hrep, hfd]
      have hgo : (Fsm.swapFrom g.removeEpsilons (g.removeEpsilons.buildDetermined states conns)).machine.out k c =
          (g.removeEpsilons.buildDetermined states conns).output k p := by
        show (g.removeEpsilons.buildDetermined states conns).output k
          ((g.removeEpsilons.buildDetermined states conns).firstDst k ((g.removeEpsilons.buildDetermined states conns).letters.representative c)) = _
        rw [hrep, hfd]
      have hpo : states.getD p ∅ = {δ q c} := by rw [List.getD_eq_getElem?_getD, hps]; rfl
      have hko : states.getD k ∅ = {q} := by rw [List.getD_eq_getElem?_getD, hks]; rfl
      refine ⟨?_, ?_, ?_⟩
      · rw [hstep]
        show p < (g.removeEpsilons.buildDetermined states conns).size
        rw [b1]; exact hp2
      · rw [hstep, hpo, elems_singleton]; rfl
      · rw [hgo]
        have hedge' := (hp1 p).2 rfl
        have hany : (List.range MaxChar).any (fun c => decide (p ∈ (g.removeEpsilons.buildDetermined states conns).dst k c)) = true := by
          rw [List.any_eq_true]
          exact ⟨e.rep, List.mem_range.2 (hlet e he).1, by simpa using hedge'⟩
        have ho : ((g.removeEpsilons.buildDetermined states conns).outputs k).bind (· p) = g.removeEpsilons.orOutputs {q} {δ q c} := by
          rw [← hko, ← hpo]
          have hx : (g.removeEpsilons.buildDetermined states conns).outputs k = some fun (l : Nat) =>
              if (List.range MaxChar).any (fun c => decide (l ∈ (g.removeEpsilons.buildDetermined states conns).dst k c)) then
                g.removeEpsilons.orOutputs (states.getD k ∅) (states.getD l ∅) else none := by
            unfold buildDetermined
            simp only
            rw [if_pos hk']
            rfl
          rw [hx, Option.bind_some]
          beta_reduce
          rw [if_pos hany]
        unfold Fsm.output
        rw [ho]
        unfold orOutputs
        rw [elems_singleton, elems_singleton, hout]
        simp only [List.foldl_cons, List.foldl_nil]
        cases (g.outputs q).bind (· (δ q c)) <;> simp

namespace Count

open Fsm Counting

theorem next_words {re sep : Language Nat} {s : List Nat × List Nat} (h : IsWord s.1 ∧ IsWord s.2) {c : Nat} (hc : IsLetter c) :
    IsWord (next re sep s c).1 ∧ IsWord (next re sep s c).2 := by
  have hc' : IsWord [c] := by intro x hx; rw [List.mem_singleton] at hx; subst hx; exact hc
  have h1 := isWord_append h.1 hc'
  have h2 := isWord_append h.2 hc'
  unfold next
  simp only
  constructor
  · split <;> assumption
  · by_cases hz : Accepted re sep (if Alive re sep (s.1 ++ [c]) then s.1 ++ [c] else s.2 ++ [c]) ∨
        Accepted re sep (s.2 ++ [c]) ∧ ¬ Matched re sep (if Alive re sep (s.1 ++ [c]) then s.1 ++ [c] else s.2 ++ [c])
    · rw [if_pos hz]; intro x hx; cases hx
    · rw [if_neg hz]; exact h2

theorem pairStep_next {re sep : Language Nat} {f : Fsm} (h : MainSpec re sep f) {s : List Nat × List Nat} (hs : IsWord s.1 ∧ IsWord s.2) {c : Nat}
    (hc : IsLetter c) : pairStep f (st f s.1, st f s.2) c = ((st f (next re sep s c).1, st f (next re sep s c).2), out re sep s c) := by
  have hc' : IsWord [c] := by intro x hx; rw [List.mem_singleton] at hx; subst hx; exact hc
  have h1 := isWord_append hs.1 hc'
  have h2 := isWord_append hs.2 hc'
  rw [pairStep_eq]
  simp only [← st_snoc]
  have hm : (if st f (s.1 ++ [c]) ∈ f.deadStates then st f (s.2 ++ [c]) else st f (s.1 ++ [c])) = st f (next re sep s c).1 := by
    unfold next
    simp only
    by_cases ha : Alive re sep (s.1 ++ [c])
    · rw [if_neg (by rw [h.dead _ h1]; exact not_not.2 ha), if_pos ha]
    · rw [if_pos ((h.dead _ h1).2 ha), if_neg ha]
  have hn := (next_words (re := re) (sep := sep) hs hc).1
  rw [hm]
  have ho : (if st f (s.1 ++ [c]) ∈ f.deadStates then 1 ||| f.tag (st f (s.1 ++ [c])) &&& 2 else 0) = out re sep s c := by
    unfold out
    by_cases ha : Alive re sep (s.1 ++ [c])
    · rw [if_neg (by rw [h.dead _ h1]; exact not_not.2 ha), if_pos ha]
    · rw [if_pos ((h.dead _ h1).2 ha), if_neg ha]
      by_cases hm : Matched re sep (s.1 ++ [c])
      · rw [if_pos hm, (h.matched _ h1).2 hm]; rfl
      · rw [if_neg hm]
        have h3 : f.tag (st f (s.1 ++ [c])) &&& 2 = 0 := by
          refine (land_two _).2 ?_
          cases hb : (f.tag (st f (s.1 ++ [c]))).testBit 1 with
          | false => rfl
          | true => exact absurd ((h.matched _ h1).1 ((land_two _).1.2 hb)) hm
        rw [h3]; rfl
  rw [ho]
  congr 1
  congr 1
  have hcond : (f.isFinal (st f (next re sep s c).1) || (f.isFinal (st f (s.2 ++ [c])) && f.tag (st f (next re sep s c).1) &&& 2 == 0)) = true ↔
      (Accepted re sep (next re sep s c).1 ∨ (Accepted re sep (s.2 ++ [c]) ∧ ¬ Matched re sep (next re sep s c).1)) := by
    rw [Bool.or_eq_true, Bool.and_eq_true, h.final _ hn, h.final _ h2, beq_iff_eq]
    have h3 : f.tag (st f (next re sep s c).1) &&& 2 = 0 ↔ ¬ Matched re sep (next re sep s c).1 := by
      rw [← h.matched _ hn, (land_two _).1]
      constructor
      · intro h4 h5
        rw [← (land_two _).1, h4] at h5
        cases h5
      · intro h4
        exact (land_two _).2 (by simpa using h4)
    rw [h3]
  by_cases hz : Accepted re sep (next re sep s c).1 ∨ (Accepted re sep (s.2 ++ [c]) ∧ ¬ Matched re sep (next re sep s c).1)
  · rw [if_pos (hcond.2 hz)]
    have e2 : (next re sep s c).2 = [] := by
      unfold Counting.next
      exact if_pos hz
    rw [e2]; rfl
  · rw [if_neg (fun h => hz (hcond.1 h))]
    have e2 : (next re sep s c).2 = s.2 ++ [c] := by
      unfold Counting.next
      exact if_neg hz
    rw [e2]

theorem told {re sep : Language Nat} {f sq : Fsm} {states : List (Nat × Nat)} (h : MainSpec re sep f) (hq : SquareSpec f states sq)
    (hok : sq.determine.2 = true) : sq.determine.1.Det ∧ ∀ w, IsWord w →
      Told re sep ([], []) w (sq.determine.1.machine.outs sq.determine.1.machine.q0 w) := by
  have hget : ∀ k < sq.size, ∃ s, states[k]? = some s := by
    intro k hk
    rw [hq.size] at hk
    exact ⟨_, List.getElem?_eq_getElem hk⟩
  have hidx : ∀ s ∈ states, ∀ k, k = states.idxOf s ↔ states[k]? = some s := by
    intro s hs k
    constructor
    · rintro rfl
      rw [List.getElem?_eq_getElem (List.idxOf_lt_length_iff.2 hs)]
      simp
    · intro hk
      obtain ⟨hk1, rfl⟩ := List.getElem?_eq_some_iff.1 hk
      exact (hq.nodup.idxOf_getElem k hk1).symm
  obtain ⟨hdet, μ, hμ0, hμ⟩ := Fsm.det_functional hq.wf hq.raw hq.nd hq.none
    (δ := fun k c => states.idxOf (pairStep f ((states[k]?).getD (0, 0)) c).1) (by
      intro k hk c hc p
      obtain ⟨s, hs⟩ := hget k hk
      rw [hq.edge k s c p hs hc]
      simp only [hs, Option.getD_some]
      exact (hidx _ (hq.next s (List.mem_of_getElem? hs) c hc) p).symm) hok
  refine ⟨hdet, ?_⟩
  generalize hD : sq.determine.1 = D at *
  have key : ∀ w, IsWord w → ∀ k < D.size, ∀ s, IsWord s.1 ∧ IsWord s.2 → states[μ k]? = some (st f s.1, st f s.2) →
      Told re sep s w (D.machine.outs k w) := by
    intro w
    induction w with
    | nil => intro _ k _ s _ _; rfl
    | cons c w ih =>
      intro hw k hk s hs hst
      have hc : IsLetter c := hw c (by simp)
      obtain ⟨hμk, hstep⟩ := hμ k hk
      obtain ⟨h1, h2, h3⟩ := hstep c hc
      simp only [hst, Option.getD_some] at h2 h3
      have hmem := List.mem_of_getElem? hst
      have hns := (hidx _ (hq.next _ hmem c hc) _).1 h2
      rw [h2] at hns
      obtain ⟨⟨c', hc', e1, e2⟩, h5⟩ := hq.out (μ k) _ _ c hst hc hns
      rw [← h3] at e2 h5
      rw [pairStep_next h hs hc] at hns e1 h5
      rw [pairStep_next h hs hc'] at e1 e2
      refine ⟨_, _, rfl, ⟨c', hc', ?_, e2⟩, h5, ?_⟩
      · have w1 := next_words (re := re) (sep := sep) hs hc
        have w2 := next_words (re := re) (sep := sep) hs hc'
        simp only [Prod.mk.injEq] at e1
        exact ⟨h.alike _ _ w2.1 w1.1 e1.1, h.alike _ _ w2.2 w1.2 e1.2⟩
      · refine ih (fun x hx => hw x (by simp [hx])) _ h1 _ (next_words hs hc) ?_
        rw [h2, pairStep_next h hs hc]
        exact hns
  intro w hw
  refine key w hw _ hdet.wf.init_lt ([], []) ⟨(fun x hx => by cases hx), (fun x hx => by cases hx)⟩ ?_
  rw [hμ0, hq.initial]
  exact hq.zero

end Count
end Pire
