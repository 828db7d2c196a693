import Verif.Proofs.Determine
import Verif.Proofs.Tags

/-! # Tags through `RemoveEpsilons` and `Determine` -/

namespace Pire
namespace Fsm

open Spec

/-- The bit is set in the tag of the state. -/
def Tagged (b : Nat) (f : Fsm) (q : Nat) : Prop := ((f.tags q).getD 0).testBit b = true

/-- The automaton with other final states. -/
def withFinals (f : Fsm) (S : Finset Nat) : Fsm := { f with finals := S }

/-- The set is that of the states with the bit. -/
def Twin (b : Nat) (f : Fsm) (S : Finset Nat) : Prop := ∀ q, q ∈ S ↔ f.Tagged b q

theorem withFinals_connectAll (l : List (Nat × Nat × Nat)) (f : Fsm) (S : Finset Nat) :
    (f.withFinals S).connectAll l = (f.connectAll l).withFinals S := by
  unfold connectAll
  induction l generalizing f with
  | nil => rfl
  | cons t l ih => rw [List.foldl_cons, List.foldl_cons]; exact ih (f.connect t.1 t.2.1 t.2.2)

/-- The state of the closure loop with other final states. -/
def REState.withFinals (st : REState) (S : Finset Nat) : REState := { fsm := st.fsm.withFinals S, inveps := st.inveps }

theorem shortCut_withFinals (st : REState) (S : Finset Nat) (q thru : Nat) :
    shortCut (REState.withFinals st S) q thru = REState.withFinals (shortCut st q thru) S := by
  have h : ∀ l, (st.fsm.withFinals S).connectAll l = (st.fsm.connectAll l).withFinals S := fun l => withFinals_connectAll l _ _
  unfold shortCut REState.withFinals
  simp only [h]
  rfl

theorem closeThru_withFinals (st : REState) (S : Finset Nat) (k : Nat) :
    closeThru (REState.withFinals st S) k = REState.withFinals (closeThru st k) S := by
  unfold closeThru
  change (elems (st.inveps k)).foldl _ _ = _
  generalize elems (st.inveps k) = l
  induction l generalizing st with
  | nil => rfl
  | cons a l ih =>
    rw [List.foldl_cons, List.foldl_cons]
    by_cases ha : a ≠ k
    · rw [if_pos ha, if_pos ha, shortCut_withFinals, ih]
    · rw [if_neg ha, if_neg ha, ih]

theorem closeAll_withFinals (l : List Nat) (st : REState) (S : Finset Nat) :
    l.foldl closeThru (REState.withFinals st S) = REState.withFinals (l.foldl closeThru st) S := by
  induction l generalizing st with
  | nil => rfl
  | cons a l ih => rw [List.foldl_cons, List.foldl_cons, closeThru_withFinals, ih]

theorem tags_closeThru (st : REState) (k : Nat) : (closeThru st k).fsm.tags = st.fsm.tags := by
  unfold closeThru
  generalize elems (st.inveps k) = l
  induction l generalizing st with
  | nil => rfl
  | cons a l ih =>
    rw [List.foldl_cons, ih]
    split
    · exact connectAll_tags ..
    · rfl

theorem tags_closeAll (l : List Nat) (st : REState) : (l.foldl closeThru st).fsm.tags = st.fsm.tags := by
  induction l generalizing st with
  | nil => rfl
  | cons a l ih => rw [List.foldl_cons, ih, tags_closeThru]

theorem tagged_mergeEps (b : Nat) (f : Fsm) (q p x : Nat) :
    (f.mergeEps q p).Tagged b x ↔ f.Tagged b x ∨ (x = q ∧ f.Tagged b p) := by
  unfold Tagged mergeEps
  simp only
  cases hp : f.tags p with
  | none => simp
  | some t =>
    simp only
    by_cases hx : x = q
    · subst hx; simp [Nat.testBit_or]
    · simp [hx]

theorem mergeEps_withFinals {b : Nat} {f : Fsm} {S : Finset Nat} (h : Twin b f S) (q p : Nat) :
    ∃ S', (f.withFinals S).mergeEps q p = (f.mergeEps q p).withFinals S' ∧ Twin b (f.mergeEps q p) S' := by
  refine ⟨if p ∈ S then insert q S else S, rfl, ?_⟩
  intro x
  rw [tagged_mergeEps, ← h x, ← h p]
  split <;> simp_all
  tauto

theorem mergeFrom_withFinals {b : Nat} {f : Fsm} {S : Finset Nat} (h : Twin b f S) (q : Nat) :
    ∃ S', (f.withFinals S).mergeFrom q = (f.mergeFrom q).withFinals S' ∧ Twin b (f.mergeFrom q) S' := by
  unfold mergeFrom
  change ∃ S', (elems (f.destinations q Epsilon)).foldl _ (f.withFinals S) = _ ∧ _
  generalize elems (f.destinations q Epsilon) = l
  induction l generalizing f S with
  | nil => exact ⟨S, rfl, h⟩
  | cons a l ih =>
    simp only [List.foldl_cons]
    by_cases ha : a ≠ q
    · rw [if_pos ha, if_pos ha]
      obtain ⟨S', h1, h2⟩ := mergeEps_withFinals h q a
      rw [h1]
      exact ih h2
    · rw [if_neg ha, if_neg ha]
      exact ih h

theorem mergeAll_withFinals {b : Nat} (l : List Nat) {f : Fsm} {S : Finset Nat} (h : Twin b f S) :
    ∃ S', l.foldl mergeFrom (f.withFinals S) = (l.foldl mergeFrom f).withFinals S' ∧ Twin b (l.foldl mergeFrom f) S' := by
  induction l generalizing f S with
  | nil => exact ⟨S, rfl, h⟩
  | cons a l ih =>
    rw [List.foldl_cons, List.foldl_cons]
    obtain ⟨S', h1, h2⟩ := mergeFrom_withFinals h a
    rw [h1]
    exact ih h2

theorem removeEpsilons_withFinals {b : Nat} {f : Fsm} {S : Finset Nat} (h : Twin b f S) :
    ∃ S', (f.withFinals S).removeEpsilons = f.removeEpsilons.withFinals S' ∧ Twin b f.removeEpsilons S' := by
  unfold removeEpsilons
  simp only
  have h1 := closeAll_withFinals (List.range f.size) { fsm := f.unsparse, inveps := f.unsparse.buildInveps } S
  have ht := tags_closeAll (List.range f.size) { fsm := f.unsparse, inveps := f.unsparse.buildInveps }
  have h2 : Twin b ((List.range f.size).foldl closeThru { fsm := f.unsparse, inveps := f.unsparse.buildInveps }).fsm S := by
    intro q
    unfold Tagged
    rw [ht]
    exact h q
  obtain ⟨S', h3, h4⟩ := mergeAll_withFinals (List.range f.size) h2
  refine ⟨S', ?_, h4⟩
  have e1 : (List.range (f.withFinals S).unsparse.size).foldl closeThru
      { fsm := (f.withFinals S).unsparse, inveps := (f.withFinals S).unsparse.buildInveps } =
      REState.withFinals ((List.range f.size).foldl closeThru { fsm := f.unsparse, inveps := f.unsparse.buildInveps }) S := h1
  rw [e1]
  change (((List.range f.size).foldl mergeFrom (Fsm.withFinals _ S)).dropEps.sparse).clearHints = _
  rw [h3]
  rfl

/-- A state has the bit after `RemoveEpsilons` if and only if a state with the bit can be reached along epsilon transitions. -/
theorem tagged_removeEpsilons {b : Nat} {f : Fsm} (h : f.WF) (ht : ∀ q, f.Tagged b q → q < f.size) (q : Nat) :
    f.removeEpsilons.Tagged b q ↔ ∃ q', f.Tagged b q' ∧ Run f.Edge q [] q' := by
  classical
  have hS : Twin b f ((Finset.range f.size).filter fun q => f.Tagged b q) := by
    intro q
    rw [Finset.mem_filter, Finset.mem_range]
    exact ⟨fun h => h.2, fun h => ⟨ht q h, h⟩⟩
  generalize (Finset.range f.size).filter (fun q => f.Tagged b q) = S at hS
  obtain ⟨S', h1, h2⟩ := removeEpsilons_withFinals hS
  have hw : (f.withFinals S).WF := h.congr rfl h.init_lt (fun q hq => ht q ((hS q).1 hq)) rfl rfl
  have hs := (removeEpsilons_spec hw).finals q
  rw [h1] at hs
  rw [← h2 q]
  refine hs.trans ?_
  constructor
  · rintro ⟨q', hq', hr⟩; exact ⟨q', (hS q').1 hq', hr⟩
  · rintro ⟨q', hq', hr⟩; exact ⟨q', (hS q').2 hq', hr⟩

theorem tagged_or {b : Nat} (f : Fsm) (s : Finset Nat) :
    ((f.orTags s).getD 0).testBit b = true ↔ ∃ j ∈ s, f.Tagged b j := by
  unfold orTags
  have gen : ∀ (l : List Nat) (acc : Option Nat), ((l.foldl (fun acc j =>
      match f.tags j with | none => acc | some t => some (acc.getD 0 ||| t)) acc).getD 0).testBit b = true ↔
      (acc.getD 0).testBit b = true ∨ ∃ j ∈ l, f.Tagged b j := by
    intro l
    induction l with
    | nil => intro acc; simp
    | cons j l ih =>
      intro acc
      rw [List.foldl_cons, ih]
      unfold Tagged
      cases hj : f.tags j with
      | none => simp [hj]
      | some t =>
        simp only [Option.getD_some, Nat.testBit_or, Bool.or_eq_true, List.mem_cons, exists_eq_or_imp, hj]
        tauto
  refine (gen (elems s) none).trans ?_
  simp [mem_elems]

theorem build_tagged {b : Nat} {f : Fsm} {states : List (Finset Nat)} {conns : List (Nat × Nat × Nat)} {k : Nat} {s : Finset Nat}
    (hk : states[k]? = some s) : (f.buildDetermined states conns).Tagged b k ↔ ∃ j ∈ s, f.Tagged b j := by
  have ht : (f.buildDetermined states conns).tags = fun ns => if ns < states.length then f.orTags (states.getD ns ∅) else none := by
    unfold buildDetermined
    exact connectAll_tags ..
  have hget : states.getD k ∅ = s := by rw [List.getD_eq_getElem?_getD, hk]; rfl
  unfold Tagged
  rw [ht]
  simp only
  rw [if_pos (List.getElem?_eq_some_iff.1 hk).1, hget]
  exact tagged_or f s

/-- Edges of the automaton without epsilon transitions against runs of the original one. -/
theorem RESpec.reach {f g : Fsm} (h : RESpec f g) {q p : Nat} {w : List Nat} (hr : Run g.Edge q w p) : Run f.Edge q w p := by
  induction hr with
  | refl => exact .refl _
  | eps e _ _ => exact absurd rfl ((h.edge _ _ _).1 e).1
  | step hc e _ ih =>
    obtain ⟨_, q', h1, h2⟩ := (h.edge _ _ _).1 e
    exact h1.trans (.step hc h2 ih)

theorem run_append_inv {E : Nat → Nat → Nat → Prop} {q r : Nat} {u v : List Nat} (h : Run E q (u ++ v) r) :
    ∃ p, Run E q u p ∧ Run E p v r := by
  induction u generalizing q with
  | nil => exact ⟨q, .refl _, h⟩
  | cons c u ih =>
    obtain ⟨q1, q2, h1, hc, e, h2⟩ := Run.cons_inv h
    obtain ⟨p, h3, h4⟩ := ih h2
    exact ⟨p, h1.trans (.step hc e h3), h4⟩

/-- The bit in the determined automaton: some state with the bit can be reached by the word read. The hypotheses are about the terminal states, at
which `Determine` stops: they have the bit, and a word that has reached the bit does not lose it. -/
theorem determine_tagged {b : Nat} {f : Fsm} (h : f.WF) (hnd : f.determined = false) (ht : ∀ q, f.Tagged b q → q < f.size) {m : Nat}
    (hok : (f.determine m).2 = true)
    (hterm : ∀ w t, IsWord w → Run f.Edge f.initial w t → t ∈ f.removeEpsilons.terminalStates → f.removeEpsilons.Tagged b t)
    (hmono : ∀ w c, IsWord (w ++ [c]) → (∃ j, f.Tagged b j ∧ Run f.Edge f.initial w j) → ∃ j, f.Tagged b j ∧ Run f.Edge f.initial (w ++ [c]) j)
    {w : List Nat} (hw : IsWord w) {k : Nat} (hr : Run (f.determine m).1.Edge (f.determine m).1.initial w k) :
    (f.determine m).1.Tagged b k ↔ ∃ j, f.Tagged b j ∧ Run f.Edge f.initial w j := by
  have hs := removeEpsilons_spec h
  obtain ⟨r1, r2⟩ := DTask.run_spec (t := f.removeEpsilons.determineTask) hs.wf.let_wf (if m ≠ 0 then m else 200000)
  cases hrun : f.removeEpsilons.determineTask.run (if m ≠ 0 then m else 200000) with
  | none =>
    have : (f.determine m).2 = false := by
      unfold determine
      rw [if_neg (by simp [hnd])]
      simp only [hrun]
    rw [this] at hok; cases hok
  | some r =>
    obtain ⟨states, conns⟩ := r
    have hR := r1 states conns hrun
    have hD : (f.determine m).1 = Fsm.swapFrom f.removeEpsilons (f.removeEpsilons.buildDetermined states conns) := by
      unfold determine
      rw [if_neg (by simp [hnd])]
      simp only [hrun]
    rw [hD] at hr ⊢
    have hdet := build_det hs hR
    obtain ⟨b1, b2, b3, b4, b5, b6⟩ := build_fields f.removeEpsilons states conns
    have hE : (Fsm.swapFrom f.removeEpsilons (f.removeEpsilons.buildDetermined states conns)).Edge =
        (f.removeEpsilons.buildDetermined states conns).Edge := edge_congr rfl rfl
    rw [hE] at hr
    change Run _ (f.removeEpsilons.buildDetermined states conns).initial w k at hr
    change (f.removeEpsilons.buildDetermined states conns).Tagged b k ↔ _
    rw [b2] at hr
    generalize hd : f.removeEpsilons.buildDetermined states conns = d at *
    generalize hg : f.removeEpsilons = g at *
    have key : ∀ w, IsWord w → ∀ k, Run d.Edge 0 w k → ∃ s, states[k]? = some s ∧
        ((∀ j, j ∈ s ↔ Run g.Edge g.initial w j) ∨ ((∃ j ∈ s, g.Tagged b j) ∧ (∃ j ∈ s, j ∈ g.terminalStates) ∧
          ∃ j, f.Tagged b j ∧ Run f.Edge f.initial w j)) := by
      intro w
      induction w using List.reverseRecOn with
      | nil =>
        intro _ k hr
        have : k = 0 := by
          cases hr with
          | refl => rfl
          | eps e _ => exact absurd e hdet.no_eps
        subst this
        refine ⟨_, hR.zero, .inl ?_⟩
        intro j
        simp only [determineTask, Finset.mem_singleton]
        constructor
        · rintro rfl; exact .refl _
        · intro hr
          cases hr with
          | refl => rfl
          | eps e _ => exact absurd rfl ((hs.edge _ _ _).1 e).1
      | append_singleton w c ih =>
        intro hw k hr
        have hw' : IsWord w := fun x hx => hw x (by simp [hx])
        have hc : IsLetter c := hw c (by simp)
        obtain ⟨k', hr', hr''⟩ := run_append_inv hr
        obtain ⟨k1, k2, h1, _, e, h2⟩ := hr''.cons_inv
        have : k1 = k' := by
          cases h1 with
          | refl => rfl
          | eps e _ => exact absurd e hdet.no_eps
        subst this
        have : k = k2 := by
          cases h2 with
          | refl => rfl
          | eps e _ => exact absurd e hdet.no_eps
        subst this
        obtain ⟨s, hs1, hs2⟩ := ih hw' _ hr'
        obtain ⟨r, hrr⟩ := Option.isSome_iff_exists.1 ((hs.all c).2 hc)
        obtain ⟨en, he, rfl, hm⟩ := (hs.wf.let_wf.inv_iff _ _).1 hrr
        obtain ⟨p, hp1, hp2, hp3⟩ := build_rows hs hR hs1 he
        rw [hd] at hp1
        have hkp : k = p := (hp1 k).1 ((edge_of_class hdet.wf (by rw [b3]; exact he) hm _ _).1 e)
        subst hkp
        by_cases hts : ∃ j ∈ s, j ∈ g.terminalStates
        · rw [if_pos hts] at hp3
          subst hp3
          refine ⟨s, hs1, .inr ⟨?_, hts, ?_⟩⟩
          · rcases hs2 with hs2 | hs2
            · obtain ⟨t, ht1, ht2⟩ := hts
              have := hs.reach ((hs2 t).1 ht1)
              rw [hs.initial] at this
              exact ⟨t, ht1, hterm w t hw' this ht2⟩
            · exact hs2.1
          · refine hmono w c hw ?_
            rcases hs2 with hs2 | hs2
            · obtain ⟨t, ht1, ht2⟩ := hts
              have hru := hs.reach ((hs2 t).1 ht1)
              rw [hs.initial] at hru
              have htg := hterm w t hw' hru ht2
              rw [← hg, tagged_removeEpsilons h ht] at htg
              obtain ⟨j, hj1, hj2⟩ := htg
              exact ⟨j, hj1, by simpa using hru.trans hj2⟩
            · exact hs2.2.2
        · rw [if_neg hts] at hp3
          refine ⟨_, hp3, .inl ?_⟩
          rcases hs2 with hs2 | hs2
          · intro j
            rw [hs.next_mem he]
            constructor
            · rintro ⟨q, hq1, hq2⟩
              exact ((hs2 q).1 hq1).snoc hc.2 ((edge_of_class hs.wf he hm _ _).2 hq2)
            · intro hru
              obtain ⟨q, hq1, hq2⟩ := run_append_inv hru
              obtain ⟨q1, q2, h1, _, e, h2⟩ := hq2.cons_inv
              have e1 : q1 = q := by
                cases h1 with
                | refl => rfl
                | eps e _ => exact absurd rfl ((hs.edge _ _ _).1 e).1
              have e2 : q2 = j := by
                cases h2 with
                | refl => rfl
                | eps e _ => exact absurd rfl ((hs.edge _ _ _).1 e).1
              subst e1 e2
              exact ⟨q1, (hs2 q1).2 hq1, (edge_of_class hs.wf he hm _ _).1 e⟩
          · exact absurd hs2.2.1 hts
    obtain ⟨s, hs1, hs2⟩ := key w hw k hr
    rw [← hd, build_tagged hs1]
    rcases hs2 with hs2 | hs2
    · constructor
      · rintro ⟨j, hj1, hj2⟩
        have hru := hs.reach ((hs2 j).1 hj1)
        rw [hs.initial] at hru
        rw [← hg, tagged_removeEpsilons h ht] at hj2
        obtain ⟨j', hj3, hj4⟩ := hj2
        exact ⟨j', hj3, by simpa using hru.trans hj4⟩
      · rintro ⟨j, hj1, hj2⟩
        have key2 : ∀ {q w}, Run f.Edge q w j → ∃ r, Run f.Edge r [] j ∧ Run g.Edge q w r := by
          clear hs2 hs1 hr hw hj2
          intro q w hr
          induction w generalizing q with
          | nil => exact ⟨q, hr, .refl _⟩
          | cons c w ih =>
            obtain ⟨q1, q2, h1, hc, e, h2⟩ := hr.cons_inv
            obtain ⟨r, hr1, hr2⟩ := ih h2
            exact ⟨r, hr1, .step hc ((hs.edge _ _ _).2 ⟨hc, q1, h1, e⟩) hr2⟩
        obtain ⟨r, hr1, hr2⟩ := key2 hj2
        refine ⟨r, (hs2 r).2 (by rw [hs.initial]; exact hr2), ?_⟩
        rw [← hg, tagged_removeEpsilons h ht]
        exact ⟨j, hj1, hr1⟩
    · exact ⟨fun _ => hs2.2.2, fun _ => hs2.1⟩

theorem RESpec.reach_inv {f g : Fsm} (h : RESpec f g) {q j : Nat} {w : List Nat} (hr : Run f.Edge q w j) :
    ∃ r, Run g.Edge q w r ∧ Run f.Edge r [] j := by
  induction w generalizing q with
  | nil => exact ⟨q, .refl _, hr⟩
  | cons c w ih =>
    obtain ⟨q1, q2, h1, hc, e, h2⟩ := hr.cons_inv
    obtain ⟨r, hr1, hr2⟩ := ih h2
    exact ⟨r, .step hc ((h.edge _ _ _).2 ⟨hc, q1, h1, e⟩) hr1, hr2⟩

/-- The sets the states of a determined automaton stand for: those of the states the word leads to, unless a state `Determine` stops at has been met
before. -/
theorem determine_sets {f : Fsm} (h : f.WF) (hnd : f.determined = false) {m : Nat} (hok : (f.determine m).2 = true) :
    ∃ set : Nat → Finset Nat, ∀ w, IsWord w → ∀ k, Run (f.determine m).1.Edge (f.determine m).1.initial w k →
      (∀ j, j ∈ set k ↔ Run f.removeEpsilons.Edge f.initial w j) ∨
      ∃ x v, w = x ++ v ∧ v ≠ [] ∧ ∃ t ∈ f.removeEpsilons.terminalStates, Run f.removeEpsilons.Edge f.initial x t := by
  have hs := removeEpsilons_spec h
  obtain ⟨r1, r2⟩ := DTask.run_spec (t := f.removeEpsilons.determineTask) hs.wf.let_wf (if m ≠ 0 then m else 200000)
  cases hrun : f.removeEpsilons.determineTask.run (if m ≠ 0 then m else 200000) with
  | none =>
    have : (f.determine m).2 = false := by
      unfold determine
      rw [if_neg (by simp [hnd])]
      simp only [hrun]
    rw [this] at hok; cases hok
  | some r =>
    obtain ⟨states, conns⟩ := r
    have hR := r1 states conns hrun
    have hD : (f.determine m).1 = Fsm.swapFrom f.removeEpsilons (f.removeEpsilons.buildDetermined states conns) := by
      unfold determine
      rw [if_neg (by simp [hnd])]
      simp only [hrun]
    rw [hD]
    refine ⟨fun k => states.getD k ∅, ?_⟩
    have hdet := build_det hs hR
    obtain ⟨b1, b2, b3, b4, b5, b6⟩ := build_fields f.removeEpsilons states conns
    have hE : (Fsm.swapFrom f.removeEpsilons (f.removeEpsilons.buildDetermined states conns)).Edge =
        (f.removeEpsilons.buildDetermined states conns).Edge := edge_congr rfl rfl
    rw [hE]
    change ∀ w, IsWord w → ∀ k, Run _ (f.removeEpsilons.buildDetermined states conns).initial w k → _
    rw [b2, ← hs.initial]
    generalize hd : f.removeEpsilons.buildDetermined states conns = d at *
    generalize hg : f.removeEpsilons = g at *
    have key : ∀ w, IsWord w → ∀ k, Run d.Edge 0 w k → ∃ s, states[k]? = some s ∧
        ((∀ j, j ∈ s ↔ Run g.Edge g.initial w j) ∨ ((∃ j ∈ s, j ∈ g.terminalStates) ∧
          ∃ x v, w = x ++ v ∧ v ≠ [] ∧ ∃ t ∈ g.terminalStates, Run g.Edge g.initial x t)) := by
      intro w
      induction w using List.reverseRecOn with
      | nil =>
        intro _ k hr
        have : k = 0 := by
          cases hr with
          | refl => rfl
          | eps e _ => exact absurd e hdet.no_eps
        subst this
        refine ⟨_, hR.zero, .inl ?_⟩
        intro j
        simp only [determineTask, Finset.mem_singleton]
        constructor
        · rintro rfl; exact .refl _
        · intro hr
          cases hr with
          | refl => rfl
          | eps e _ => exact absurd rfl ((hs.edge _ _ _).1 e).1
      | append_singleton w c ih =>
        intro hw k hr
        have hw' : IsWord w := fun x hx => hw x (by simp [hx])
        have hc : IsLetter c := hw c (by simp)
        obtain ⟨k', hr', hr''⟩ := run_append_inv hr
        obtain ⟨k1, k2, h1, _, e, h2⟩ := hr''.cons_inv
        have : k1 = k' := by
          cases h1 with
          | refl => rfl
          | eps e _ => exact absurd e hdet.no_eps
        subst this
        have : k = k2 := by
          cases h2 with
          | refl => rfl
          | eps e _ => exact absurd e hdet.no_eps
        subst this
        obtain ⟨s, hs1, hs2⟩ := ih hw' _ hr'
        obtain ⟨r, hrr⟩ := Option.isSome_iff_exists.1 ((hs.all c).2 hc)
        obtain ⟨en, he, rfl, hm⟩ := (hs.wf.let_wf.inv_iff _ _).1 hrr
        obtain ⟨p, hp1, hp2, hp3⟩ := build_rows hs hR hs1 he
        rw [hd] at hp1
        have hkp : k = p := (hp1 k).1 ((edge_of_class hdet.wf (by rw [b3]; exact he) hm _ _).1 e)
        subst hkp
        by_cases hts : ∃ j ∈ s, j ∈ g.terminalStates
        · rw [if_pos hts] at hp3
          subst hp3
          refine ⟨s, hs1, .inr ⟨hts, ?_⟩⟩
          rcases hs2 with hs2 | ⟨_, x, v, rfl, hv, h⟩
          · obtain ⟨t, ht1, ht2⟩ := hts
            exact ⟨w, [c], rfl, by simp, t, ht2, (hs2 t).1 ht1⟩
          · exact ⟨x, v ++ [c], by simp, by simp, h⟩
        · rw [if_neg hts] at hp3
          refine ⟨_, hp3, .inl ?_⟩
          rcases hs2 with hs2 | hs2
          · intro j
            rw [hs.next_mem he]
            constructor
            · rintro ⟨q, hq1, hq2⟩
              exact ((hs2 q).1 hq1).snoc hc.2 ((edge_of_class hs.wf he hm _ _).2 hq2)
            · intro hru
              obtain ⟨q, hq1, hq2⟩ := run_append_inv hru
              obtain ⟨q1, q2, h1, _, e, h2⟩ := hq2.cons_inv
              have e1 : q1 = q := by
                cases h1 with
                | refl => rfl
                | eps e _ => exact absurd rfl ((hs.edge _ _ _).1 e).1
              have e2 : q2 = j := by
                cases h2 with
                | refl => rfl
                | eps e _ => exact absurd rfl ((hs.edge _ _ _).1 e).1
              subst e1 e2
              exact ⟨q1, (hs2 q1).2 hq1, (edge_of_class hs.wf he hm _ _).1 e⟩
          · exact absurd hs2.1 hts
    intro w hw k hr
    obtain ⟨s, hs1, hs2⟩ := key w hw k hr
    have hget : states.getD k ∅ = s := by rw [List.getD_eq_getElem?_getD, hs1]; rfl
    beta_reduce
    rw [hget]
    rcases hs2 with hs2 | hs2
    · exact .inl hs2
    · exact .inr hs2.2

end Fsm
end Pire
