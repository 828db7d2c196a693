import Verif.Proofs.Good
import Mathlib.Computability.DFA

/-!
# Helper facts for the algebra of automata (C07, C08, C18–C22)
-/

namespace Pire
open Spec

namespace Fsm

theorem asMid_flags (l : List Nat) (s : ASt × Nat) (h : s.1.fsm.isAlt = false ∧ s.1.fsm.determined = false) :
    (l.foldl asMid s).1.fsm.isAlt = false ∧ (l.foldl asMid s).1.fsm.determined = false := by
  induction l generalizing s with
  | nil => exact h
  | cons c l ih =>
    refine ih _ ?_
    unfold asMid
    simp only
    split
    · exact ⟨rfl, rfl⟩
    · exact h

theorem asStep_flags (fin : Nat) (st : ASt) (s : List Nat) (h : st.fsm.isAlt = false ∧ st.fsm.determined = false) :
    (asStep fin st s).fsm.isAlt = false ∧ (asStep fin st s).fsm.determined = false := by
  match s with
  | [] => exact h
  | [c] => exact ⟨rfl, rfl⟩
  | c :: d :: cs => exact ⟨rfl, rfl⟩

theorem appendStrings_flags {f g : Fsm} (ha : f.isAlt = false) (hd : f.determined = false) {T : List (List Nat)}
    (hg : f.appendStrings T = some g) : g.isAlt = false ∧ g.determined = false := by
  unfold appendStrings at hg
  split at hg
  · cases hg
  · cases hg
    have key : ∀ (l : List (List Nat)) (st : ASt), st.fsm.isAlt = false ∧ st.fsm.determined = false →
        (l.foldl (asStep (f.resize (f.size + 1)).size.pred) st).fsm.isAlt = false ∧
        (l.foldl (asStep (f.resize (f.size + 1)).size.pred) st).fsm.determined = false := by
      intro l
      induction l with
      | nil => exact fun _ h => h
      | cons s l ih => exact fun st h => ih _ (asStep_flags _ _ _ h)
    exact key T { fsm := f.resize (f.size + 1), start := fun _ => 0, ltr := fun _ _ => 0 } ⟨ha, hd⟩

theorem appendStrings_good {f g : Fsm} (h : f.Good) (hr : f.Raw) (ha : f.isAlt = false) (hd : f.determined = false)
    {T : List (List Nat)} (hb : ∀ t ∈ T, ∀ c ∈ t, c < 256) (hg : f.appendStrings T = some g) :
    g.Good ∧ g.Lang = f.Lang * oneOf T ∧ g.initial ∉ g.finals := by
  obtain ⟨h1, h2, h3, h4⟩ := appendStrings_spec h.wf hr hb hg
  obtain ⟨h5, h6⟩ := appendStrings_flags ha hd hg
  exact ⟨.of_raw h1 h2 (.of_false h5) h6, h3, h4⟩

theorem foldl_connectFinal_keep (l : List Nat) (g : Fsm) :
    (l.foldl (fun g c => g.connectFinal (g.size - 1) c) g).initial = g.initial ∧
    (l.foldl (fun g c => g.connectFinal (g.size - 1) c) g).size = g.size := by
  induction l generalizing g with
  | nil => exact ⟨rfl, rfl⟩
  | cons c l ih =>
    rw [List.foldl_cons]
    obtain ⟨h1, h2⟩ := ih (g.connectFinal (g.size - 1) c)
    exact ⟨h1.trans (by simp), h2.trans (by simp)⟩

theorem appendDot_initial_not_final {f : Fsm} (h : f.WF) : f.appendDot.initial ∉ f.appendDot.finals := by
  unfold appendDot
  generalize List.range 256 = l
  obtain ⟨h1, h2⟩ := foldl_connectFinal_keep l (f.resize (f.size + 1))
  simp only [appendLetters, clearFinal, setFinal, if_true, Finset.mem_insert, Finset.notMem_empty, or_false]
  rw [h1, h2]
  have := h.init_lt
  simp only [resize_initial, resize_size]
  omega

theorem canonize_reach {f g : Fsm} (h : f.Good) (hnd : f.determined = false) {m : Nat} (hg : f.canonize m = some g) :
    ∀ k < g.size, ∃ w, IsWord w ∧ Run g.Edge g.initial w k := by
  unfold canonize at hg
  rw [if_neg (by simp [hnd])] at hg
  simp only at hg
  split at hg
  · rename_i ok
    cases hg
    obtain ⟨h1, h2, -, -, -, -, h3⟩ := (determine_spec h.wf hnd m).1 ok
    obtain ⟨m1, m2, m3, m4, m5, m6, ⟨cls, c1, c2, c3⟩, m8⟩ := h1.minimize
    intro k hk
    obtain ⟨q, hq, rfl⟩ := c2 k hk
    obtain ⟨w, hw⟩ := h3 q hq
    have hwd := h1.wf.run_word hw
    refine ⟨w, hwd, ?_⟩
    obtain ⟨p, hp, hr⟩ := m1.exists_run hwd m1.wf.init_lt
    have : cls q = p := by
      apply m8 _ (c1 q hq).1 _ hp
      rw [(c1 q hq).2]
      ext v
      have e1 : v ∈ (f.determine m).1.LangFrom q ↔ w ++ v ∈ (f.determine m).1.Lang := by
        constructor
        · rintro ⟨x, hx, hv⟩; exact ⟨x, hx, hw.trans hv⟩
        · rintro ⟨x, hx, hv⟩
          obtain ⟨y, hy1, hy2⟩ := hv.split
          rw [h1.run_unique hw hy1]
          exact ⟨x, hx, hy2⟩
      have e2 : v ∈ (f.determine m).1.minimize.LangFrom p ↔ w ++ v ∈ (f.determine m).1.minimize.Lang := by
        constructor
        · rintro ⟨x, hx, hv⟩; exact ⟨x, hx, hr.trans hv⟩
        · rintro ⟨x, hx, hv⟩
          obtain ⟨y, hy1, hy2⟩ := hv.split
          rw [m1.run_unique hr hy1]
          exact ⟨x, hx, hy2⟩
      rw [e1, e2, m2]
    rw [this]
    exact hr
  · cases hg

/-- Residual of a state reached by `w`. -/
theorem Det.residual {f : Fsm} (h : f.Det) {w : List Nat} {q : Nat} (hw : Run f.Edge f.initial w q) (v : List Nat) :
    v ∈ f.LangFrom q ↔ w ++ v ∈ f.Lang := by
  constructor
  · rintro ⟨x, hx, hv⟩; exact ⟨x, hx, hw.trans hv⟩
  · rintro ⟨x, hx, hv⟩
    obtain ⟨y, hy1, hy2⟩ := hv.split
    rw [h.run_unique hw hy1]
    exact ⟨x, hx, hy2⟩

/-- A reachable automaton with inequivalent states is no larger than any deterministic machine for its language. -/
theorem Det.size_le {g : Fsm} (h : g.Det) (hreach : ∀ k < g.size, ∃ w, IsWord w ∧ Run g.Edge g.initial w k)
    (hd : ∀ k < g.size, ∀ k' < g.size, g.LangFrom k = g.LangFrom k' → k = k')
    {σ : Type*} [Fintype σ] (M : DFA Nat σ) (hM : ∀ w, IsWord w → (w ∈ M.accepts ↔ w ∈ g.Lang)) :
    g.size ≤ Fintype.card σ := by
  classical
  choose! W hW1 hW2 using hreach
  have : Function.Injective fun k : Fin g.size => M.eval (W k) := by
    intro a b hab
    simp only at hab
    apply Fin.ext
    apply hd _ a.2 _ b.2
    ext v
    by_cases hv : IsWord v
    · rw [h.residual (hW2 _ a.2), h.residual (hW2 _ b.2), ← hM _ (by
        intro c hc
        rcases List.mem_append.1 hc with hc | hc
        · exact hW1 _ a.2 _ hc
        · exact hv _ hc), ← hM _ (by
        intro c hc
        rcases List.mem_append.1 hc with hc | hc
        · exact hW1 _ b.2 _ hc
        · exact hv _ hc), DFA.mem_accepts, DFA.mem_accepts]
      unfold DFA.eval DFA.evalFrom at *
      rw [List.foldl_append, List.foldl_append, hab]
    · constructor
      · intro hx; obtain ⟨p, _, hr⟩ := hx; exact absurd (h.wf.run_word hr) hv
      · intro hx; obtain ⟨p, _, hr⟩ := hx; exact absurd (h.wf.run_word hr) hv
  have := Fintype.card_le_of_injective _ this
  rwa [Fintype.card_fin] at this

theorem Det.final_iff {g : Fsm} (h : g.Det) (q : Nat) : q ∈ g.finals ↔ [] ∈ g.LangFrom q := by
  constructor
  · intro hq; exact ⟨q, hq, .refl _⟩
  · rintro ⟨p, hp, hr⟩
    cases hr with
    | refl => exact hp
    | eps e _ => exact absurd e h.no_eps

theorem Det.edge_residual {g : Fsm} (h : g.Det) {q c p : Nat} (hc : IsLetter c) (e : g.Edge q c p) (v : List Nat) :
    v ∈ g.LangFrom p ↔ c :: v ∈ g.LangFrom q := by
  constructor
  · rintro ⟨x, hx, hv⟩; exact ⟨x, hx, .step hc.2 e hv⟩
  · rintro ⟨x, hx, hv⟩
    cases hv with
    | eps e _ => exact absurd e h.no_eps
    | step _ e' hv => rw [h.edge_unique e e']; exact ⟨x, hx, hv⟩

/-- Two reachable automata with inequivalent states and the same language are the same up to renaming of states. -/
theorem Det.iso {f g : Fsm} (hf : f.Det) (hg : g.Det)
    (rf : ∀ k < f.size, ∃ w, IsWord w ∧ Run f.Edge f.initial w k)
    (rg : ∀ k < g.size, ∃ w, IsWord w ∧ Run g.Edge g.initial w k)
    (df : ∀ k < f.size, ∀ k' < f.size, f.LangFrom k = f.LangFrom k' → k = k')
    (dg : ∀ k < g.size, ∀ k' < g.size, g.LangFrom k = g.LangFrom k' → k = k') (hL : f.Lang = g.Lang) :
    ∃ π : Nat → Nat, Set.BijOn π {q | q < f.size} {q | q < g.size} ∧ π f.initial = g.initial ∧
      (∀ q < f.size, π q ∈ g.finals ↔ q ∈ f.finals) ∧
      ∀ q < f.size, ∀ p < f.size, ∀ c, IsLetter c → (g.Edge (π q) c (π p) ↔ f.Edge q c p) := by
  classical
  have key : ∀ {f g : Fsm}, f.Det → g.Det → f.Lang = g.Lang →
      (∀ k < f.size, ∃ w, IsWord w ∧ Run f.Edge f.initial w k) →
      ∀ k, ∃ p, k < f.size → p < g.size ∧ g.LangFrom p = f.LangFrom k := by
    intro f g hf hg hL rf k
    by_cases hk : k < f.size
    · obtain ⟨w, hw, hr⟩ := rf k hk
      obtain ⟨p, hp, hp'⟩ := hg.exists_run hw hg.wf.init_lt
      refine ⟨p, fun _ => ⟨hp, ?_⟩⟩
      ext v
      rw [hg.residual hp', hf.residual hr, hL]
    · exact ⟨0, fun h => absurd h hk⟩
  choose π hπ using key hf hg hL rf
  choose ρ hρ using key hg hf hL.symm rg
  refine ⟨π, ⟨fun q hq => (hπ q hq).1, ?_, ?_⟩, ?_, ?_, ?_⟩
  · intro a ha b hb hab
    exact df _ ha _ hb (by rw [← (hπ a ha).2, ← (hπ b hb).2, hab])
  · intro p hp
    refine ⟨ρ p, (hρ p hp).1, ?_⟩
    exact dg _ (hπ _ (hρ p hp).1).1 _ hp (by rw [(hπ _ (hρ p hp).1).2, (hρ p hp).2])
  · exact dg _ (hπ _ hf.wf.init_lt).1 _ hg.wf.init_lt (by rw [(hπ _ hf.wf.init_lt).2]; exact hL)
  · intro q hq
    rw [hg.final_iff, hf.final_iff, (hπ q hq).2]
  · intro q hq p hp c hc
    obtain ⟨p', hp'⟩ := hf.exists_edge hq hc
    obtain ⟨r, hr⟩ := hg.exists_edge (hπ q hq).1 hc
    have h1 : π p' = r := by
      refine dg _ (hπ _ (hf.wf.edge_lt hp').2.2).1 _ (hg.wf.edge_lt hr).2.2 ?_
      rw [(hπ _ (hf.wf.edge_lt hp').2.2).2]
      ext v
      rw [hf.edge_residual hc hp', hg.edge_residual hc hr, (hπ q hq).2]
    constructor
    · intro e
      have h2 := hg.edge_unique e hr
      have : p = p' := df _ hp _ (hf.wf.edge_lt hp').2.2 (by
        rw [← (hπ _ hp).2, ← (hπ _ (hf.wf.edge_lt hp').2.2).2, h1, h2])
      rw [this]; exact hp'
    · intro e
      rw [hf.edge_unique e hp', h1]; exact hr

/-- The set of states reached from the initial one by a word. -/
def reached (g : Fsm) (w : List Nat) : Set Nat := {q | Run g.Edge g.initial w q}

theorem reach_words {f : Fsm} (h : f.WF) {s : Finset Nat} (hr : f.removeEpsilons.determineTask.Reach s) :
    ∃ w, IsWord w ∧ (s : Set Nat) = f.removeEpsilons.reached w := by
  have hs := removeEpsilons_spec h
  have noeps : ∀ q p, ¬ f.removeEpsilons.Edge q 257 p := by
    intro q p e
    rw [Edge, eff, if_pos rfl] at e
    exact ((hs.dst _ _ _).1 e).1 rfl
  induction hr with
  | init =>
    refine ⟨[], by simp [IsWord], ?_⟩
    ext q
    simp only [determineTask, Finset.coe_singleton, Set.mem_singleton_iff, reached, Set.mem_setOf_eq]
    constructor
    · rintro rfl; exact .refl _
    · intro hr
      cases hr with
      | refl => rfl
      | eps e _ => exact absurd e (noeps _ _)
  | @step s e _ _ he ih =>
    obtain ⟨w, hw, hsw⟩ := ih
    have hinv := hs.wf.let_wf.inv_of_mem he (hs.wf.let_wf.rep_mem e he)
    have hlet := (hs.all e.rep).1 (by rw [hinv]; rfl)
    refine ⟨w ++ [e.rep], ?_, ?_⟩
    · intro c hc
      rcases List.mem_append.1 hc with hc | hc
      · exact hw _ hc
      · rw [List.mem_singleton] at hc; subst hc; exact hlet
    · ext p
      rw [Finset.mem_coe, hs.next_mem he]
      have hed : ∀ q, p ∈ f.removeEpsilons.dst q e.rep ↔ f.removeEpsilons.Edge q e.rep p := by
        intro q
        rw [Edge, eff, if_neg hlet.2, Partition.repOr, hinv]; rfl
      simp only [reached, Set.mem_setOf_eq]
      constructor
      · rintro ⟨q, hq, hp⟩
        have : q ∈ f.removeEpsilons.reached w := by rw [← hsw]; exact hq
        exact this.trans (.step hlet.2 ((hed _).1 hp) (.refl _))
      · intro hr
        obtain ⟨q, h1, h2⟩ := hr.split
        refine ⟨q, ?_, ?_⟩
        · have : q ∈ f.removeEpsilons.reached w := h1
          rw [← hsw] at this; exact this
        · cases h2 with
          | eps e _ => exact absurd e (noeps _ _)
          | step _ e' h' =>
            cases h' with
            | refl => exact (hed _).2 e'
            | eps e _ => exact absurd e (noeps _ _)

/-- `Determine` fails only with more than `max + 1` distinct subsets. -/
theorem determine_fail {f : Fsm} (h : f.WF) {m : Nat} (hf : (f.determine m).2 = false) :
    ∃ ws : List (List Nat), ws.length = (if m ≠ 0 then m else 200000) + 2 ∧ (∀ w ∈ ws, IsWord w) ∧
      (ws.map f.removeEpsilons.reached).Nodup := by
  have hs := removeEpsilons_spec h
  unfold determine at hf
  split at hf
  · cases hf
  · simp only at hf
    have r2 := (DTask.run_spec (t := f.removeEpsilons.determineTask) hs.wf.let_wf (if m ≠ 0 then m else 200000)).2
    cases hr : f.removeEpsilons.determineTask.run (if m ≠ 0 then m else 200000) with
    | some sc => rw [hr] at hf; cases hf
    | none =>
      obtain ⟨l, hnd, hre, hlen⟩ := r2.1 hr
      have hex : ∀ s : Finset Nat, ∃ w, s ∈ l → IsWord w ∧ (s : Set Nat) = f.removeEpsilons.reached w := by
        intro s
        by_cases hsl : s ∈ l
        · obtain ⟨w, hw⟩ := reach_words h (hre s hsl)
          exact ⟨w, fun _ => hw⟩
        · exact ⟨[], fun h => absurd h hsl⟩
      choose W hW using hex
      refine ⟨l.map W, by rw [List.length_map, hlen], ?_, ?_⟩
      · intro w hw
        obtain ⟨s, hsl, rfl⟩ := List.mem_map.1 hw
        exact (hW s hsl).1
      · rw [List.map_map]
        refine List.Nodup.map_on ?_ hnd
        intro x hx y hy hxy
        simp only [Function.comp_apply] at hxy
        rw [← (hW x hx).2, ← (hW y hy).2] at hxy
        exact Finset.coe_injective hxy

end Fsm
end Pire
