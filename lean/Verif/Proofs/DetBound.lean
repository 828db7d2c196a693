import Verif.Proofs.DetTags
import Verif.Proofs.Pattern
import Mathlib.Data.Fintype.Card

/-!
# When `Determine` succeeds, and how many states and letters there are then
-/

namespace Pire

open Spec

namespace Fsm

/-- The states reached after a word that ends with `c`, in terms of the automaton before `RemoveEpsilons`. -/
theorem reached_snoc {f : Fsm} (h : f.WF) {w : List Nat} {c : Nat} (hc : IsLetter c) (p : Nat) :
    p ∈ f.removeEpsilons.reached (w ++ [c]) ↔ ∃ q, Run f.Edge f.initial w q ∧ f.Edge q c p := by
  have hs := removeEpsilons_spec h
  have noeps : ∀ q p, ¬ f.removeEpsilons.Edge q 257 p := fun q p e => ((hs.edge _ _ _).1 e).1 rfl
  unfold reached
  rw [Set.mem_setOf_eq, hs.initial]
  constructor
  · intro hr
    obtain ⟨x, h1, h2⟩ := run_append_inv hr
    obtain ⟨x1, x2, h3, _, e, h4⟩ := h2.cons_inv
    have e1 : x1 = x := by
      cases h3 with
      | refl => rfl
      | eps e _ => exact absurd e (noeps _ _)
    have e2 : x2 = p := by
      cases h4 with
      | refl => rfl
      | eps e _ => exact absurd e (noeps _ _)
    subst e1 e2
    obtain ⟨_, q', r1, r2⟩ := (hs.edge _ _ _).1 e
    have := (hs.reach h1).trans r1
    rw [List.append_nil] at this
    exact ⟨q', this, r2⟩
  · rintro ⟨q, hr, e⟩
    obtain ⟨r, h1, h2⟩ := hs.reach_inv hr
    exact h1.trans (.step hc.2 ((hs.edge _ _ _).2 ⟨hc.2, q, h2, e⟩) (.refl _))

/-- If words are sorted into few kinds so that words of the same kind lead to the same states, `Determine` succeeds and the result is small. -/
theorem det_bound {f : Fsm} (h : f.WF) (hnd : f.determined = false) {τ : Type} [Fintype τ] (κ : List Nat → τ)
    (hκ : ∀ w w', IsWord w → IsWord w' → κ w = κ w' → f.removeEpsilons.reached w = f.removeEpsilons.reached w') (hk : Fintype.card τ ≤ 200001) :
    f.determine.2 = true ∧ f.determine.1.size ≤ Fintype.card τ := by
  classical
  have hs := removeEpsilons_spec h
  have key : ∀ l : List (Finset Nat), l.Nodup → (∀ s ∈ l, f.removeEpsilons.determineTask.Reach s) → l.length ≤ Fintype.card τ := by
    intro l hn hr
    have hex : ∀ s : Finset Nat, ∃ w, s ∈ l → IsWord w ∧ (s : Set Nat) = f.removeEpsilons.reached w := by
      intro s
      by_cases hsl : s ∈ l
      · obtain ⟨w, hw⟩ := reach_words h (hr s hsl)
        exact ⟨w, fun _ => hw⟩
      · exact ⟨[], fun h => absurd h hsl⟩
    choose W hW using hex
    have hm : (l.map fun s => κ (W s)).Nodup := by
      refine List.Nodup.map_on ?_ hn
      intro x hx y hy hxy
      have := hκ _ _ (hW x hx).1 (hW y hy).1 hxy
      rw [← (hW x hx).2, ← (hW y hy).2] at this
      exact_mod_cast this
    have := Finset.card_le_univ (l.map fun s => κ (W s)).toFinset
    rw [List.toFinset_card_of_nodup hm, List.length_map] at this
    exact this
  obtain ⟨r1, r2⟩ := DTask.run_spec (t := f.removeEpsilons.determineTask) hs.wf.let_wf (if 0 ≠ 0 then 0 else 200000)
  unfold determine
  rw [if_neg (by simp [hnd])]
  cases hrun : f.removeEpsilons.determineTask.run (if 0 ≠ 0 then 0 else 200000) with
  | none =>
    exfalso
    obtain ⟨l, h1, h2, h3⟩ := r2.1 hrun
    have := key l h1 h2
    simp only [ne_eq, not_true_eq_false, if_false] at h3
    omega
  | some r =>
    obtain ⟨states, conns⟩ := r
    have hR := r1 states conns hrun
    simp only [hrun]
    refine ⟨trivial, ?_⟩
    show (f.removeEpsilons.buildDetermined states conns).size ≤ _
    rw [(build_fields f.removeEpsilons states conns).1]
    exact key states hR.nodup fun s hs' => (hR.mem s).1 hs'

/-- The two letters cannot be told apart. -/
def Equi (f : Fsm) (c c' : Nat) : Prop := ∀ q p, f.Edge q c p ↔ f.Edge q c' p

theorem det_equi {f : Fsm} (h : f.WF) (hnd : f.determined = false) (hok : f.determine.2 = true) {c c' : Nat} (hc : IsLetter c) (hc' : IsLetter c')
    (he : f.Equi c c') : f.determine.1.Equi c c' := by
  have hs := removeEpsilons_spec h
  have hE : ∀ q p, f.removeEpsilons.Edge q c p ↔ f.removeEpsilons.Edge q c' p := by
    intro q p
    rw [hs.edge, hs.edge]
    constructor
    · rintro ⟨_, q', h1, h2⟩; exact ⟨hc'.2, q', h1, (he _ _).1 h2⟩
    · rintro ⟨_, q', h1, h2⟩; exact ⟨hc.2, q', h1, (he _ _).2 h2⟩
  obtain ⟨r1, r2⟩ := DTask.run_spec (t := f.removeEpsilons.determineTask) hs.wf.let_wf (if 0 ≠ 0 then 0 else 200000)
  cases hrun : f.removeEpsilons.determineTask.run (if 0 ≠ 0 then 0 else 200000) with
  | none =>
    have : (f.determine 0).2 = false := by
      unfold Fsm.determine
      rw [if_neg (by simp [hnd])]
      simp only [hrun]
    rw [this] at hok; cases hok
  | some r =>
    obtain ⟨states, conns⟩ := r
    have hR := r1 states conns hrun
    have hD : (f.determine 0).1 = Fsm.swapFrom f.removeEpsilons (f.removeEpsilons.buildDetermined states conns) := by
      unfold Fsm.determine
      rw [if_neg (by simp [hnd])]
      simp only [hrun]
    rw [hD]
    have hdet := build_det hs hR
    obtain ⟨b1, b2, b3, b4, b5, b6⟩ := build_fields f.removeEpsilons states conns
    have hE' : (Fsm.swapFrom f.removeEpsilons (f.removeEpsilons.buildDetermined states conns)).Edge =
        (f.removeEpsilons.buildDetermined states conns).Edge := edge_congr rfl rfl
    have hcls : ∀ c, IsLetter c → ∃ e ∈ f.removeEpsilons.letters.set, c ∈ e.members := by
      intro c hc
      obtain ⟨r, hr⟩ := Option.isSome_iff_exists.1 ((hs.all c).2 hc)
      obtain ⟨e, he, -, hm⟩ := (hs.wf.let_wf.inv_iff _ _).1 hr
      exact ⟨e, he, hm⟩
    obtain ⟨e, he1, hm⟩ := hcls c hc
    obtain ⟨e', he2, hm'⟩ := hcls c' hc'
    have hed : ∀ q p, p ∈ f.removeEpsilons.dst q e.rep ↔ p ∈ f.removeEpsilons.dst q e'.rep := by
      intro q p
      rw [← edge_of_class hs.wf he1 hm, ← edge_of_class hs.wf he2 hm', hE]
    intro q p
    rw [hE', edge_of_class hdet.wf (by rw [b3]; exact he1) hm, edge_of_class hdet.wf (by rw [b3]; exact he2) hm']
    by_cases hq : q < states.length
    · have hq' : states[q]? = some states[q] := List.getElem?_eq_getElem hq
      obtain ⟨x, hx1, hx2, hx3⟩ := build_rows hs hR hq' he1
      obtain ⟨y, hy1, hy2, hy3⟩ := build_rows hs hR hq' he2
      rw [hx1, hy1]
      have : x = y := by
        by_cases ht : ∃ j ∈ states[q], j ∈ f.removeEpsilons.terminalStates
        · rw [if_pos ht] at hx3 hy3; rw [hx3, hy3]
        · rw [if_neg ht] at hx3 hy3
          have hn : f.removeEpsilons.determineTask.next states[q] e.rep = f.removeEpsilons.determineTask.next states[q] e'.rep := by
            ext z
            rw [hs.next_mem he1, hs.next_mem he2]
            simp only [hed]
          rw [hn] at hx3
          obtain ⟨k1, k2⟩ := List.getElem?_eq_some_iff.1 hx3
          obtain ⟨k3, k4⟩ := List.getElem?_eq_some_iff.1 hy3
          exact (hR.nodup.getElem_inj_iff).1 (k2.trans k4.symm)
      rw [this]
    · have : ∀ c, p ∉ (f.removeEpsilons.buildDetermined states conns).dst q c := by
        intro c hp
        rcases (build_dst _ _ _).1 hp with ⟨k, _⟩ | k
        · exact hq k
        · obtain ⟨s, hs', _⟩ := (hR.conns _ _ _).1 k
          exact hq (List.getElem?_eq_some_iff.1 hs').1
      exact iff_of_false (this _) (this _)

/-- What a complement is made of. -/
theorem comp_shape {f g : Fsm} (h : f.Good) (hnd : f.determined = false) (hg : f.complement = some g) :
    ∃ d : Fsm, d.Det ∧ d.Lang = f.Lang ∧ (∀ k < d.size, ∃ w, IsWord w ∧ Run d.Edge d.initial w k) ∧
      (∀ k < d.size, ∀ k' < d.size, d.LangFrom k = d.LangFrom k' → k = k') ∧ g = d.complementCore := by
  rw [complement_eq] at hg
  split at hg
  · rename_i ok
    cases hg
    have hc : f.canonize 0 = some f.determine.1.minimize := by
      unfold canonize
      rw [if_neg (by simp [hnd])]
      simp only [ok, if_true]
    obtain ⟨c1, c2, c3, c4⟩ := canonize_spec h hc
    exact ⟨_, c1, c3, canonize_reach h hnd hc, c4, rfl⟩
  · cases hg

theorem comp_size {f g : Fsm} (h : f.Good) (hnd : f.determined = false) (hg : f.complement = some g) {σ : Type} [Fintype σ] (M : DFA Nat σ)
    (hM : ∀ w, IsWord w → (w ∈ M.accepts ↔ w ∈ f.Lang)) : g.size ≤ Fintype.card σ + 1 := by
  obtain ⟨d, d1, d2, d3, d4, rfl⟩ := comp_shape h hnd hg
  rw [(complementCore_fields d).1]
  have := d1.size_le d3 d4 M (by rw [d2]; exact hM)
  omega

/-- Letters that are not told apart by the language are not told apart by the complement. -/
theorem comp_equi {f g : Fsm} (h : f.Good) (hnd : f.determined = false) (hg : f.complement = some g) {c c' : Nat} (hc : IsLetter c) (hc' : IsLetter c')
    (hl : ∀ u v, u ++ c :: v ∈ f.Lang ↔ u ++ c' :: v ∈ f.Lang) : g.Equi c c' := by
  obtain ⟨d, d1, d2, d3, d4, rfl⟩ := comp_shape h hnd hg
  intro q p
  have hne : c ≠ 257 := hc.2
  have hne' : c' ≠ 257 := hc'.2
  rw [complementCore_edge d1.wf, complementCore_edge d1.wf]
  simp only [hne, hne', and_false, or_false]
  by_cases hq : q < d.size
  · obtain ⟨x, hx⟩ := d1.exists_edge hq hc
    obtain ⟨y, hy⟩ := d1.exists_edge hq hc'
    have : x = y := by
      obtain ⟨w, hw, hr⟩ := d3 q hq
      refine d4 x (d1.wf.edge_lt hx).2.2 y (d1.wf.edge_lt hy).2.2 ?_
      ext v
      rw [d1.residual (hr.snoc hne hx), d1.residual (hr.snoc hne' hy), d2]
      simpa using hl w v
    subst this
    constructor
    · intro e; rw [d1.edge_unique e hx]; exact hy
    · intro e; rw [d1.edge_unique e hy]; exact hx
  · exact iff_of_false (fun e => hq (d1.wf.edge_lt e).1) (fun e => hq (d1.wf.edge_lt e).1)

/-- Nine letters in one class: at most 256 classes. -/
theorem letters_le {p : Partition} (hw : p.WF) (hl : Multi.AllLetters p) (h : ∀ c < 9, p.inv c = p.inv 0) : p.size ≤ 256 := by
  classical
  have h1 : (p.set.map PClass.rep).Nodup := by
    rw [List.nodup_iff_pairwise_ne, List.pairwise_map]
    exact hw.sorted.imp fun h => Nat.ne_of_lt h
  have hsub : (p.set.map PClass.rep).toFinset ⊆ (insert ((p.inv 0).getD 0) ((Finset.range 264).filter fun c => 9 ≤ c ∧ c ≠ 257)) := by
    intro r hr
    rw [List.mem_toFinset, List.mem_map] at hr
    obtain ⟨e, he, rfl⟩ := hr
    have hi := hw.inv_of_mem he (hw.rep_mem e he)
    have hlet := (hl e.rep).1 (by rw [hi]; rfl)
    rw [Finset.mem_insert, Finset.mem_filter, Finset.mem_range]
    by_cases h9 : e.rep < 9
    · left
      rw [← h _ h9, hi]; rfl
    · exact .inr ⟨hlet.1, by omega, hlet.2⟩
  have hcard : ((Finset.range 264).filter fun c => 9 ≤ c ∧ c ≠ 257).card ≤ 254 := by
    have : ((Finset.range 264).filter fun c => 9 ≤ c ∧ c ≠ 257) ⊆ (Finset.Ico 9 264).erase 257 := by
      intro x hx
      rw [Finset.mem_filter, Finset.mem_range] at hx
      rw [Finset.mem_erase, Finset.mem_Ico]
      exact ⟨hx.2.2, hx.2.1, hx.1⟩
    refine (Finset.card_le_card this).trans ?_
    rw [Finset.card_erase_of_mem (by rw [Finset.mem_Ico]; omega), Nat.card_Ico]
  have h2 := Finset.card_le_card hsub
  rw [List.toFinset_card_of_nodup h1, List.length_map] at h2
  have h3 := Finset.card_insert_le ((p.inv 0).getD 0) ((Finset.range 264).filter fun c => 9 ≤ c ∧ c ≠ 257)
  unfold Partition.size
  omega

end Fsm
end Pire
