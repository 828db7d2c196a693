import Verif.Proofs.GreedyCounter
import Mathlib.Data.Fintype.BigOperators
import Mathlib.Data.Fintype.Prod
import Mathlib.Data.Fintype.Option

/-!
# Greedy counters: how many counting states there are
-/

namespace Pire
open Fsm Spec HalfFinal HalfFinal.Greedy
namespace Greedy

/-! ### No state twice -/

/-- No state of the automaton occurs twice. -/
def Once (s : DSt) : Prop := (s.states.map Holder.state).Nodup

theorem once_addState {f : Fsm} {s : DSt} (h : Once s) (q k : Nat) (r fo : Bool) : Once (addState f s q k r fo) := by
  unfold addState
  simp only
  by_cases hany : (s.states.any fun h => h.state == q) = true
  · rw [if_pos hany]; exact h
  · rw [if_neg hany]
    split
    · unfold Once
      simp only [List.map_append, List.map_cons, List.map_nil]
      rw [List.nodup_append]
      refine ⟨h, by simp, fun a ha b hb => ?_⟩
      rw [List.mem_singleton] at hb
      rintro rfl
      subst hb
      obtain ⟨x, hx, hxe⟩ := List.mem_map.1 ha
      exact hany (List.any_eq_true.2 ⟨x, hx, by simpa using hxe⟩)
    · exact h

theorem once_settle {s : DSt} (h : Once s) (D : Nat) : Once (settle D s) := by
  unfold Once settle at *
  simp only [List.map_map]
  exact h

theorem once_finish {f : Fsm} {s : DSt} (h : Once s) (D k : Nat) : Once (finishBuild f s D k) := once_settle (once_addState h ..) _

theorem once_nil (t l : Nat) : Once ⟨[], t, l⟩ := List.nodup_nil

theorem once_advance (f : Fsm) (s : DSt) (c : Nat) : Once (advance f s c) := by
  unfold advance
  have h1 : ∀ (l : List Nat) (k : Nat) (r : Bool) (n : DSt), Once n → Once (l.foldl (fun n q => addState f n q k r false) n) := by
    intro l k r
    induction l with
    | nil => intro n h; exact h
    | cons q l ih => intro n h; exact ih _ (once_addState h ..)
  have h2 : ∀ (l : List Holder) (n : DSt), Once n → Once (l.foldl (fun n h => (elems (f.destinations h.state c)).foldl (fun n q => addState f n q h.count h.reached false) n) n) := by
    intro l
    induction l with
    | nil => intro n h; exact h
    | cons q l ih => intro n h; exact ih _ (h1 _ _ _ _ h)
  exact h2 _ _ (once_nil ..)

theorem once_next (f : Fsm) (D : Nat) (s : DSt) (c : Nat) : Once (next f D s c) := by
  unfold next
  simp only
  split
  · exact once_addState (once_nil ..) ..
  · exact once_finish (once_advance ..) ..

theorem once_after (f : Fsm) (D : Nat) (u : List Nat) : Once (after f D u) := by
  rcases List.eq_nil_or_concat u with rfl | ⟨v, c, rfl⟩
  · exact once_finish (once_nil ..) ..
  · rw [List.concat_eq_append, after_snoc]; exact once_next ..

/-! ### Bounds -/

variable {f : Fsm} {L : Language Nat} {st : List Nat → Option Nat}

/-- What is in a counting state, if the matches are at most `d` deep. -/
theorem state_bounds (hs : Sim f L st) {D d m : Nat} (hC : Cond f L st D) (hd : ∀ x, st x ≠ none → later L x < d) (hm : ∀ x q, st x = some q → q < m)
    {u : List Nat} (hu : IsWord u) :
    (∀ h ∈ (after f D u).states, h.state < m ∧ h.count < d) ∧ (after f D u).last < d ∧ (after f D u).toAdd < d + 1 := by
  have cap : ∀ {w A S xs}, Inv L st w A S xs → tokens L w - A < d ∧ A ≤ tokens L w := by
    intro w A S xs h
    obtain ⟨x, hx, hA⟩ := h.eq
    have h1 := upTo_later (h.sub.subset hx)
    have h2 := hd x (h.alive x hx)
    omega
  have hst : ∀ {w A S xs}, Inv L st w A S xs → (∀ h ∈ S.states, h.state < m ∧ h.count < d) ∧ S.last < d := by
    intro w A S xs h
    have hcap := cap h
    refine ⟨fun z hz => ?_, by have := h.last; omega⟩
    rw [h.states] at hz
    obtain ⟨x, hx, rfl⟩ := List.mem_map.1 hz
    unfold hold
    obtain ⟨q, hq⟩ := Option.ne_none_iff_exists'.1 (h.alive x hx)
    refine ⟨?_, ?_⟩
    · rw [hq]; exact hm x q hq
    · have := upTo_le (L := L) w x
      show upTo L w x - A < d
      omega
  suffices h : (∃ w A xs, Inv L st w A (after f D u) xs) ∧ (after f D u).toAdd < d + 1 by
    obtain ⟨⟨w, A, xs, hx⟩, h2⟩ := h
    exact ⟨(hst hx).1, (hst hx).2, h2⟩
  induction u using List.reverseRecOn with
  | nil =>
    rw [after_nil, start_eq hs hC.nil]
    exact ⟨⟨_, _, _, fresh_inv hs 0⟩, Nat.succ_pos _⟩
  | append_singleton u c ih =>
    obtain ⟨⟨w, A, xs, hx⟩, -⟩ := ih fun x hx => hu x (List.mem_append_left _ hx)
    have hcap := cap hx
    rw [after_snoc]
    by_cases hc : c = EndMark
    · rw [hc, end_spec hs hC hx]
      refine ⟨⟨_, _, _, fresh_inv hs _⟩, ?_⟩
      show tokens L w - A < d + 1
      omega
    · obtain ⟨zs, hz⟩ := next_spec hs hC hx (hu c (by simp)) hc
      refine ⟨⟨_, _, _, hz⟩, ?_⟩
      have h1 := (cap hz).2
      have h2 := tokens_snoc_le (L := L) w c
      omega

/-- All that can be in a counting state. -/
abbrev Code (m d : Nat) : Type := (Fin m → Option (Fin m × Fin d × Bool)) × Fin (d + 1) × Fin d

theorem code_card (m d : Nat) : Fintype.card (Code m d) = (m * (d * 2) + 1) ^ m * ((d + 1) * d) := by
  simp [Code, Fintype.card_prod, Fintype.card_option]

theorem reach_word {f g : Fsm} (hD : Doubled g f) {D : Nat} {s : DSt} (hs : (task f D).Reach s) : ∃ u, IsWord u ∧ after f D u = s := by
  induction hs with
  | init => exact ⟨[], (by intro _ h; cases h), rfl⟩
  | @step s e _ _ he ih =>
    obtain ⟨u, h1, h2⟩ := ih
    have hl : IsLetter e.rep := (hD.all _).1 (by rw [hD.let_wf.inv_of_mem he (hD.let_wf.rep_mem e he)]; rfl)
    refine ⟨u ++ [e.rep], ?_, by rw [after_snoc, h2]; rfl⟩
    intro x hx
    rcases List.mem_append.1 hx with hx | hx
    · exact h1 x hx
    · rw [List.mem_singleton] at hx; rw [hx]; exact hl

/-- If there is room for all of them, determining succeeds. -/
theorem settles_of {g : Fsm} (hD : Doubled g f) (hs : Sim f L st) {D d m : Nat} (hC : Cond f L st D) (hd : ∀ x, st x ≠ none → later L x < d)
    (hm : ∀ x q, st x = some q → q < m) (hroom : (m * (d * 2) + 1) ^ m * ((d + 1) * d) ≤ 200001) : (task f D).run 200000 ≠ none := by
  rw [ne_eq, (DTask.run_spec (t := task f D) hD.let_wf 200000).2]
  rintro ⟨l, hnd, hre, hlen⟩
  have hb : ∀ s ∈ l, (∀ h ∈ s.states, h.state < m ∧ h.count < d) ∧ s.last < d ∧ s.toAdd < d + 1 ∧ Once s := by
    intro s hsl
    obtain ⟨u, h1, rfl⟩ := reach_word hD (hre s hsl)
    obtain ⟨b1, b2, b3⟩ := state_bounds hs hC hd hm h1
    exact ⟨b1, b2, b3, once_after ..⟩
  have hdpos : 0 < d := by
    have := hd [] (by rw [hs.nil]; simp)
    omega
  have hmpos : 0 < m := lt_of_le_of_lt (Nat.zero_le _) (hm [] _ hs.nil)
  let code : DSt → Code m d := fun s =>
    (fun i => (s.states[i.val]?).map fun h => (⟨h.state % m, Nat.mod_lt _ hmpos⟩, ⟨h.count % d, Nat.mod_lt _ hdpos⟩, h.reached),
      ⟨s.toAdd % (d + 1), Nat.mod_lt _ (Nat.succ_pos _)⟩, ⟨s.last % d, Nat.mod_lt _ hdpos⟩)
  have hlenS : ∀ s ∈ l, s.states.length ≤ m := by
    intro s hsl
    obtain ⟨b1, -, -, b4⟩ := hb s hsl
    have hsub : s.states.map Holder.state ⊆ List.range m := by
      intro x hx
      obtain ⟨h, hh, rfl⟩ := List.mem_map.1 hx
      exact List.mem_range.2 (b1 h hh).1
    have := (b4.subperm hsub).length_le
    simpa using this
  have hinj : ∀ s ∈ l, ∀ s' ∈ l, code s = code s' → s = s' := by
    intro s hsl s' hsl' he
    obtain ⟨b1, b2, b3, -⟩ := hb s hsl
    obtain ⟨c1, c2, c3, -⟩ := hb s' hsl'
    have e1 := congrArg Prod.fst he
    have e2 := congrArg (fun x => x.2.1.val) he
    have e3 := congrArg (fun x => x.2.2.val) he
    simp only [code] at e1 e2 e3
    rw [Nat.mod_eq_of_lt b3, Nat.mod_eq_of_lt c3] at e2
    rw [Nat.mod_eq_of_lt b2, Nat.mod_eq_of_lt c2] at e3
    have e4 : s.states = s'.states := by
      apply List.ext_getElem?
      intro i
      by_cases hi : i < m
      · have := congrFun e1 ⟨i, hi⟩
        simp only at this
        cases h1 : s.states[i]? with
        | none =>
          rw [h1] at this
          cases h2 : s'.states[i]? with
          | none => rfl
          | some y => rw [h2] at this; cases this
        | some x =>
          rw [h1] at this
          cases h2 : s'.states[i]? with
          | none => rw [h2] at this; cases this
          | some y =>
            rw [h2] at this
            simp only [Option.map_some, Option.some.injEq, Prod.mk.injEq, Fin.mk.injEq] at this
            have hx := b1 x (List.mem_of_getElem? h1)
            have hy := c1 y (List.mem_of_getElem? h2)
            rw [Nat.mod_eq_of_lt hx.1, Nat.mod_eq_of_lt hy.1, Nat.mod_eq_of_lt hx.2, Nat.mod_eq_of_lt hy.2] at this
            obtain ⟨t1, t2, t3⟩ := this
            cases x; cases y
            simp only at t1 t2 t3
            rw [t1, t2, t3]
      · rw [List.getElem?_eq_none (by have := hlenS s hsl; omega), List.getElem?_eq_none (by have := hlenS s' hsl'; omega)]
    cases s; cases s'
    simp only at e2 e3 e4
    rw [e2, e3, e4]
  have hn : (l.map code).Nodup := by
    rw [List.nodup_map_iff_inj_on hnd]
    exact hinj
  have := hn.length_le_card
  rw [List.length_map, code_card, hlen] at this
  omega

end Greedy
end Pire
