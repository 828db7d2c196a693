import Verif.Proofs.CountDet
import Verif.Proofs.DetBound
import Mathlib.Data.Fintype.Pi
import Mathlib.Data.Fintype.BigOperators
import Mathlib.Data.Fintype.Prod
import Mathlib.Data.Fintype.Option

/-!
# When the constructor of `CountingScanner` succeeds
-/

namespace Pire

open Spec

namespace Fsm

theorem Equi.union {f rhs : Fsm} (hg : f.Good) (hg2 : rhs.Good) (a2 : rhs.isAlt = false) {c c' : Nat} (hc : c ≠ 257) (hc' : c' ≠ 257)
    (h : f.Equi c c') (h2 : rhs.Equi c c') : (f.union rhs).Equi c c' := by
  obtain ⟨bw, braw, bsize, binit, bfin, bE⟩ := unionBase_spec hg.wf hg.coh hg2.wf hg2.coh
  have key : ∀ q p, (unionBase f rhs).Edge q c p ↔ (unionBase f rhs).Edge q c' p := by
    intro q p
    rw [bE, bE, h q p, h2 _ _]
  intro q p
  cases a1 : f.isAlt with
  | true =>
    have hu : f.union rhs = { (unionBase f rhs).connect (unionBase f rhs).initial (f.size + rhs.initial) Epsilon with
        determined := false, isAlt := true } := by
      unfold Fsm.union
      simp only [a1, a2, Bool.not_true, Bool.not_false, Bool.and_self, Bool.false_and,
        Bool.false_eq_true, if_false, if_true]
      rfl
    rw [hu, show Edge { (unionBase f rhs).connect (unionBase f rhs).initial (f.size + rhs.initial) Epsilon with
        determined := false, isAlt := true } = ((unionBase f rhs).connect (unionBase f rhs).initial (f.size + rhs.initial) Epsilon).Edge from
        edge_congr rfl rfl, edge_connect, edge_connect, key_raw braw, key_raw braw, key q p]
    simp only [Epsilon, hc, hc', and_false]
  | false =>
    have hu : f.union rhs = { (((unionBase f rhs).resize ((unionBase f rhs).size + 1)).connect (unionBase f rhs).size (unionBase f rhs).initial Epsilon).connect
        (unionBase f rhs).size (f.size + rhs.initial) Epsilon with initial := (unionBase f rhs).size, determined := false, isAlt := true } := by
      unfold Fsm.union
      simp only [a1, a2, Bool.not_false, Bool.and_self, if_true]
      rfl
    have hr1 : ((unionBase f rhs).resize ((unionBase f rhs).size + 1)).letters = Partition.empty := by rw [resize_letters]; exact braw
    have hr2 : (((unionBase f rhs).resize ((unionBase f rhs).size + 1)).connect (unionBase f rhs).size (unionBase f rhs).initial Epsilon).letters =
      Partition.empty := hr1
    rw [hu, show Edge { (((unionBase f rhs).resize ((unionBase f rhs).size + 1)).connect (unionBase f rhs).size (unionBase f rhs).initial Epsilon).connect
        (unionBase f rhs).size (f.size + rhs.initial) Epsilon with initial := (unionBase f rhs).size, determined := false, isAlt := true } =
        ((((unionBase f rhs).resize ((unionBase f rhs).size + 1)).connect (unionBase f rhs).size (unionBase f rhs).initial Epsilon).connect
        (unionBase f rhs).size (f.size + rhs.initial) Epsilon).Edge from edge_congr rfl rfl, edge_connect, edge_connect, edge_connect, edge_connect,
        resize_edge bw (by omega), key_raw hr1, key_raw hr1, key_raw hr2, key_raw hr2, key q p]
    simp only [Epsilon, hc, hc', and_false]

/-- The number of states after `Determine` of any automaton. -/
theorem det_pow {f : Fsm} (h : f.WF) (hnd : f.determined = false) (hk : 2 ^ f.size ≤ 200001) :
    f.determine.2 = true ∧ f.determine.1.size ≤ 2 ^ f.size := by
  classical
  have hs := removeEpsilons_spec h
  have := det_bound h hnd (τ := Fin f.size → Bool) (fun w i => decide (i.1 ∈ f.removeEpsilons.reached w)) (by
    intro w w' hw hw' he
    have key : ∀ w, ∀ p ∈ f.removeEpsilons.reached w, p < f.size := by
      intro w p hp
      have := hs.wf.run_lt hp hs.wf.init_lt
      rw [hs.size] at this
      exact this
    ext p
    by_cases hp : p < f.size
    · have := congrFun he ⟨p, hp⟩
      simpa using this
    · exact iff_of_false (fun h => hp (key _ _ h)) (fun h => hp (key _ _ h)))
  rw [Fintype.card_pi_const, Fintype.card_bool] at this
  exact this hk

end Fsm

namespace Count

open Fsm Counting

/-- The characters as `anyChar` sees them. -/
def charKind (c : Nat) : Fin 4 := if c < 256 then 0 else if c = 258 then 1 else if c = 259 then 2 else 3

theorem forDot_edge (q c p : Nat) : forDot.Edge q c p ↔ q = 0 ∧ p = 1 ∧ c < 256 := by
  unfold forDot appendDot
  rw [appendLetters_edge WF.init, key_raw init_raw, List.mem_range]
  constructor
  · rintro (e | ⟨h, h1, h2⟩)
    · exact absurd e (init_noEdge _ _ _)
    · exact ⟨Finset.mem_singleton.1 h, h1, h2⟩
  · rintro ⟨rfl, rfl, h⟩
    exact .inr ⟨Finset.mem_singleton.2 rfl, rfl, h⟩

theorem forChar_edge (d q c p : Nat) : (forChar d).Edge q c p ↔ q = 0 ∧ p = 1 ∧ c = d := by
  unfold forChar
  rw [appendChar_edge WF.init, key_raw init_raw]
  constructor
  · rintro (e | ⟨h, h1, h2⟩)
    · exact absurd e (init_noEdge _ _ _)
    · exact ⟨Finset.mem_singleton.1 h, h1, h2⟩
  · rintro ⟨rfl, rfl, h⟩
    exact .inr ⟨Finset.mem_singleton.2 rfl, rfl, h⟩

theorem charKind_iff {c c' : Nat} (h : charKind c = charKind c') : (c < 256 ↔ c' < 256) ∧ (c = 258 ↔ c' = 258) ∧ (c = 259 ↔ c' = 259) := by
  unfold charKind at h
  split at h <;> split at h <;> (try split at h) <;> (try split at h) <;> (try split at h) <;> (try split at h) <;>
    first
    | (exfalso; revert h; decide)
    | (refine ⟨?_, ?_, ?_⟩ <;> omega)

theorem anyChar_equi {c c' : Nat} (hc : IsLetter c) (hc' : IsLetter c') (h : charKind c = charKind c') : anyChar.Equi c c' := by
  obtain ⟨h1, h2, h3⟩ := charKind_iff h
  have e1 : forDot.Equi c c' := by intro q p; rw [forDot_edge, forDot_edge, h1]
  have e2 : (forChar BeginMark).Equi c c' := by intro q p; rw [forChar_edge, forChar_edge, show BeginMark = 258 from rfl, h2]
  have e3 : (forChar EndMark).Equi c c' := by intro q p; rw [forChar_edge, forChar_edge, show EndMark = 259 from rfl, h3]
  unfold anyChar
  exact (e1.union forDot_good (forChar_good (by decide)) rfl hc.2 hc'.2 e2).union
    (forDot_good.union (forChar_good (by decide))) (forChar_good (by decide)) rfl hc.2 hc'.2 e3

/-- Nothing is left of `anyChar` after two characters. -/
theorem anyChar_short {w : List Nat} {q c p : Nat} (hr : Run anyChar.Edge anyChar.initial w q) (e : anyChar.Edge q c p) (hc : c ≠ 257) : w = [] := by
  obtain ⟨r, r0, h⟩ := anyChar_ranked
  have mono : ∀ a w b, Run anyChar.Edge a w b → r a ≤ r b ∧ (w ≠ [] → r a < r b) := by
    intro a w b hr
    induction hr with
    | refl => exact ⟨Nat.le_refl _, fun h => absurd rfl h⟩
    | eps e _ ih =>
      have := (h _ _ _ e).1
      exact ⟨by omega, fun h => by have := ih.2 h; omega⟩
    | step hc e _ ih =>
      have := (h _ _ _ e).2.1 hc
      exact ⟨by omega, fun _ => by omega⟩
  by_contra hne
  have h1 := (mono _ _ _ hr).2 hne
  have h2 := (h _ _ _ e).2.1 hc
  have h3 := (h _ _ _ e).2.2
  omega

theorem NfaSpec.reached {D N : Fsm} (h : NfaSpec D N) {u : List Nat} {c : Nat} (hu : IsWord u) (hc : IsLetter c) (p : Nat) :
    p ∈ N.removeEpsilons.reached (u ++ [c]) ↔ (p < D.size ∧ Run D.Edge D.initial (u ++ [c]) p) ∨
      (D.size ≤ p ∧ p < 2 * D.size ∧ Run D.Edge D.initial (u ++ [c]) (p - D.size) ∧ ∃ v, v <+: u ∧ v ∈ D.Lang) ∨
      (2 * D.size ≤ p ∧ u = [] ∧ ∃ q, Run anyChar.Edge anyChar.initial [] q ∧ anyChar.Edge q c (p - 2 * D.size)) := by
  have hi := h.det.wf.init_lt
  rw [reached_snoc h.wf hc]
  constructor
  · rintro ⟨q, hr, e⟩
    rcases h.runI hr with ⟨h1, h2⟩ | h2
    · rw [h.edge] at e
      rcases e with e | ⟨_, _, e⟩ | ⟨_, _, h3⟩ | ⟨h3, h4, e⟩ | ⟨_, _, h3⟩
      · have := (h.edge_lt e).1; omega
      · have := (h.edge_lt e).1; omega
      · exact absurd h3 hc.2
      · have := anyChar_short h2 e hc.2
        subst this
        exact .inr (.inr ⟨h4, rfl, _, h2, e⟩)
      · exact absurd h3 hc.2
    · rcases h.runA h2 hi with ⟨h3, h4⟩ | ⟨h3, h4, x, y, z, rfl, h5, h6, h7⟩
      · rw [h.edge, h.initial] at e
        rcases e with e | ⟨h5, _, e⟩ | ⟨_, _, h3⟩ | ⟨h5, h6, e⟩ | ⟨h5, _, h6⟩
        · exact .inl ⟨(h.edge_lt e).2, h4.snoc hc.2 e⟩
        · omega
        · exact absurd h3 hc.2
        · omega
        · exact absurd h6 hc.2
      · rw [h.edge, h.initial] at e
        rcases e with e | ⟨h8, h9, e⟩ | ⟨_, _, h3⟩ | ⟨h8, _, e⟩ | ⟨_, _, h6⟩
        · have := (h.edge_lt e).1; omega
        · have := (h.edge_lt e).2
          refine .inr (.inl ⟨h9, by omega, ?_, x, List.prefix_append _ _, ⟨z, h5, h6⟩⟩)
          exact (h6.trans h7).snoc hc.2 e
        · exact absurd h3 hc.2
        · omega
        · exact absurd h6 hc.2
  · rintro (⟨h1, h2⟩ | ⟨h1, h2, h3, v, ⟨y, rfl⟩, z, h4, h5⟩ | ⟨h1, rfl, q, h2, h3⟩)
    · obtain ⟨x, r1, r2⟩ := run_append_inv h2
      obtain ⟨x1, x2, r3, -, e, r4⟩ := r2.cons_inv
      have h0 : ∀ {a b}, Run D.Edge a [] b → a = b := by
        intro a b hr
        cases hr with
        | refl => rfl
        | eps e _ => exact absurd e (h.det.no_eps)
      have := h0 r3; subst this
      have := h0 r4; subst this
      exact ⟨x, h.initD r1, (h.edge _ _ _).2 (.inl e)⟩
    · have h0 : ∀ {a b}, Run D.Edge a [] b → a = b := by
        intro a b hr
        cases hr with
        | refl => rfl
        | eps e _ => exact absurd e (h.det.no_eps)
      rw [List.append_assoc] at h3
      obtain ⟨x, r1, r2⟩ := run_append_inv h3
      have := h.det.run_unique r1 h5
      subst this
      obtain ⟨x', r5, r6⟩ := run_append_inv r2
      obtain ⟨x1, x2, r3, -, e, r4⟩ := r6.cons_inv
      have := h0 r3; subst this
      have := h0 r4; subst this
      refine ⟨D.size + x', (h.initD h5).trans (.eps ((h.edge _ _ _).2 (.inr (.inr (.inl ⟨h4, rfl, rfl⟩)))) (h.liftC r5)), ?_⟩
      refine (h.edge _ _ _).2 (.inr (.inl ⟨by omega, h1, ?_⟩))
      rw [show D.size + x' - D.size = x' by omega]
      exact e
    · refine ⟨2 * D.size + q, ?_, (h.edge _ _ _).2 (.inr (.inr (.inr (.inl ⟨by omega, h1, ?_⟩))))⟩
      · rw [h.initial]; exact h.liftS h2
      · rw [show 2 * D.size + q - 2 * D.size = q by omega]; exact h3

/-- How long the word is, and what its only character is. -/
def lengthKind : List Nat → Fin 5
  | [c] => (charKind c).castSucc
  | _ => 4

/-- The second `Determine` succeeds, and the number of states is at most ten times larger. -/
theorem NfaSpec.bound {D N : Fsm} (h : NfaSpec D N) (hk : 10 * D.size + 1 ≤ 200001) : N.determine.2 = true ∧ N.determine.1.size ≤ 10 * D.size + 1 := by
  classical
  have hex : ∀ w, ∃ q : Fin D.size, IsWord w → Run D.Edge D.initial w q := by
    intro w
    by_cases hw : IsWord w
    · obtain ⟨p, h1, h2⟩ := h.det.exists_run hw h.det.wf.init_lt
      exact ⟨⟨p, h1⟩, fun _ => h2⟩
    · exact ⟨⟨_, h.det.wf.init_lt⟩, fun h => absurd h hw⟩
  choose δ hδ using hex
  have := det_bound h.wf h.nd (τ := Option (Fin D.size × Bool × Fin 5))
    (fun w => if w = [] then none else some (δ w, decide (∃ v, v <+: w.dropLast ∧ v ∈ D.Lang), lengthKind w)) (by
    intro w w' hw hw' he
    by_cases h0 : w = [] <;> by_cases h0' : w' = []
    · rw [h0, h0']
    · simp [h0, h0'] at he
    · simp [h0, h0'] at he
    · simp only [h0, h0', if_false, Option.some.injEq, Prod.mk.injEq, decide_eq_decide] at he
      obtain ⟨e1, e2, e3⟩ := he
      rcases List.eq_nil_or_concat w with rfl | ⟨u, c, rfl⟩
      · exact absurd rfl h0
      rcases List.eq_nil_or_concat w' with rfl | ⟨u', c', rfl⟩
      · exact absurd rfl h0'
      rw [List.concat_eq_append, List.concat_eq_append] at *
      have hu : IsWord u := fun x hx => hw x (List.mem_append_left _ hx)
      have hu' : IsWord u' := fun x hx => hw' x (List.mem_append_left _ hx)
      have hc : IsLetter c := hw c (by simp)
      have hc' : IsLetter c' := hw' c' (by simp)
      have hrun : ∀ p, Run D.Edge D.initial (u ++ [c]) p ↔ Run D.Edge D.initial (u' ++ [c']) p := by
        intro p
        have r1 := hδ _ hw
        have r2 := hδ _ hw'
        rw [← e1] at r2
        constructor
        · intro r; rw [h.det.run_unique r r1]; exact r2
        · intro r; rw [h.det.run_unique r r2]; exact r1
      rw [List.dropLast_concat, List.dropLast_concat] at e2
      ext p
      rw [h.reached hu hc, h.reached hu' hc', hrun p, hrun (p - D.size), e2]
      have hany : (u = [] ∧ ∃ q, Run anyChar.Edge anyChar.initial [] q ∧ anyChar.Edge q c (p - 2 * D.size)) ↔
          (u' = [] ∧ ∃ q, Run anyChar.Edge anyChar.initial [] q ∧ anyChar.Edge q c' (p - 2 * D.size)) := by
        have h4 : ∀ (v : List Nat) d, v ≠ [] → lengthKind (v ++ [d]) = 4 := by
          intro v d hv
          match v with
          | [] => exact absurd rfl hv
          | [x] => rfl
          | x :: y :: z => rfl
        have h3 : ∀ x : Fin 4, x.castSucc ≠ (4 : Fin 5) := by decide
        by_cases hn : u = [] <;> by_cases hn' : u' = []
        · subst hn hn'
          have : charKind c = charKind c' := Fin.castSucc_injective _ e3
          simp only [anyChar_equi hc hc' this _ _]
        · subst hn
          rw [h4 _ _ hn'] at e3
          exact absurd e3 (h3 _)
        · subst hn'
          rw [h4 _ _ hn] at e3
          exact absurd e3.symm (h3 _)
        · simp only [hn, hn', false_and]
      rw [hany])
  rw [Fintype.card_option, Fintype.card_prod, Fintype.card_prod, Fintype.card_bool, Fintype.card_fin, Fintype.card_fin] at this
  have h2 : D.size * (2 * 5) + 1 = 10 * D.size + 1 := by omega
  rw [h2] at this
  exact this hk

/-- Letters that are not told apart by `D` and by `anyChar` are not told apart by the rest. -/
theorem NfaSpec.equi {D N : Fsm} (h : NfaSpec D N) {c c' : Nat} (hc : IsLetter c) (hc' : IsLetter c') (hk : charKind c = charKind c') (he : D.Equi c c') :
    N.Equi c c' := by
  intro q p
  rw [h.edge, h.edge, he q p, he (q - D.size) (p - D.size), anyChar_equi hc hc' hk (q - 2 * D.size) (p - 2 * D.size)]
  simp only [hc.2, hc'.2, and_false]

/-- The third `Determine` succeeds, and the number of states is at most that of pairs. -/
theorem square_bound {f sq : Fsm} {states : List (Nat × Nat)} (hq : SquareSpec f states sq)
    (hk : f.size * f.size ≤ 200001) : sq.determine.2 = true ∧ sq.determine.1.size ≤ f.size * f.size := by
  classical
  have hlen : states.length ≤ f.size * f.size := by
    have hsub : states.toFinset ⊆ Finset.range f.size ×ˢ Finset.range f.size := by
      intro s hs
      have := hq.lt s (List.mem_toFinset.1 hs)
      simp [this]
    have := Finset.card_le_card hsub
    rw [List.toFinset_card_of_nodup hq.nodup, Finset.card_product, Finset.card_range] at this
    exact this
  have hpos : 0 < states.length := (List.getElem?_eq_some_iff.1 hq.zero).1
  have hone : ∀ w, ∃ k : Fin states.length, IsWord w → sq.removeEpsilons.reached w = {k.1} := by
    have hs := removeEpsilons_spec hq.wf
    have hE : ∀ (k : Nat) c p, k < states.length → IsLetter c → (sq.removeEpsilons.Edge k c p ↔ sq.Edge k c p) := by
      intro k c p hk hc
      rw [hs.edge]
      constructor
      · rintro ⟨_, q', hr, e⟩
        have : q' = k := by
          cases hr with
          | refl => rfl
          | eps e _ =>
            rw [edge_iff, key_raw hq.raw] at e
            simp [Fsm.dst, hq.none] at e
        rw [← this]; exact e
      · intro e
        exact ⟨hc.2, k, .refl _, e⟩
    intro w
    by_cases hw : IsWord w
    · suffices ∃ k < states.length, sq.removeEpsilons.reached w = {k} by
        obtain ⟨k, h1, h2⟩ := this
        exact ⟨⟨k, h1⟩, fun _ => h2⟩
      induction w using List.reverseRecOn with
      | nil =>
        refine ⟨0, hpos, ?_⟩
        ext p
        have : p ∈ sq.removeEpsilons.reached [] ↔ Run sq.removeEpsilons.Edge sq.removeEpsilons.initial [] p := Iff.rfl
        rw [this, Set.mem_singleton_iff, hs.initial, hq.initial]
        constructor
        · intro hr
          cases hr with
          | refl => rfl
          | eps e _ => exact absurd e (fun e => ((hs.edge _ _ _).1 e).1 rfl)
        · rintro rfl; exact .refl _
      | append_singleton w c ih =>
        have hc : IsLetter c := hw c (by simp)
        obtain ⟨k, h1, h2⟩ := ih fun x hx => hw x (List.mem_append_left _ hx)
        have hk : states[k]? = some states[k] := List.getElem?_eq_getElem h1
        have hm := hq.next _ (List.mem_of_getElem? hk) c hc
        obtain ⟨l, hl⟩ := List.mem_iff_getElem?.1 hm
        refine ⟨l, (List.getElem?_eq_some_iff.1 hl).1, ?_⟩
        have hkr : ∀ p, Run sq.removeEpsilons.Edge sq.removeEpsilons.initial w p ↔ p = k := by
          intro p
          have : p ∈ sq.removeEpsilons.reached w ↔ p ∈ ({k} : Set Nat) := by rw [h2]
          rw [Set.mem_singleton_iff] at this
          exact this
        ext p
        have : p ∈ sq.removeEpsilons.reached (w ++ [c]) ↔ Run sq.removeEpsilons.Edge sq.removeEpsilons.initial (w ++ [c]) p := Iff.rfl
        rw [this, Set.mem_singleton_iff]
        have h0 : ∀ {a b}, Run sq.removeEpsilons.Edge a [] b → a = b := by
          intro a b hr
          cases hr with
          | refl => rfl
          | eps e _ => exact absurd e (fun e => ((hs.edge _ _ _).1 e).1 rfl)
        constructor
        · intro hr
          obtain ⟨x, r1, r2⟩ := run_append_inv hr
          obtain ⟨x1, x2, r3, -, e, r4⟩ := r2.cons_inv
          have := h0 r3; subst this
          have := h0 r4; subst this
          have := (hkr _).1 r1; subst this
          rw [hE _ _ _ h1 hc, hq.edge _ _ _ _ hk hc] at e
          obtain ⟨k1, k2⟩ := List.getElem?_eq_some_iff.1 e
          obtain ⟨k3, k4⟩ := List.getElem?_eq_some_iff.1 hl
          exact (hq.nodup.getElem_inj_iff).1 (k2.trans k4.symm)
        · rintro rfl
          exact ((hkr k).2 rfl).snoc hc.2 ((hE _ _ _ h1 hc).2 ((hq.edge _ _ _ _ hk hc).2 hl))
    · exact ⟨⟨0, hpos⟩, fun h => absurd h hw⟩
  choose δ hδ using hone
  have := det_bound hq.wf hq.nd (τ := Fin states.length) δ (by
    intro w w' hw hw' he
    rw [hδ w hw, hδ w' hw', he])
  rw [Fintype.card_fin] at this
  obtain ⟨h1, h2⟩ := this (hlen.trans hk)
  exact ⟨h1, h2.trans hlen⟩

/-- The classes of letters of the result. -/
theorem square_letters {f sq : Fsm} {states : List (Nat × Nat)} (hq : SquareSpec f states sq)
    (hok : sq.determine.2 = true) (he : ∀ c < 9, ∀ q < f.size, go f q c = go f q 0) : sq.determine.1.letters.size ≤ 256 := by
  have hs := removeEpsilons_spec hq.wf
  have hlet : sq.determine.1.letters = sq.removeEpsilons.letters := by
    cases hrun : sq.removeEpsilons.determineTask.run (if 0 ≠ 0 then 0 else 200000) with
    | none =>
      have : (sq.determine 0).2 = false := by
        unfold Fsm.determine
        rw [if_neg (by simp [hq.nd])]
        simp only [hrun]
      rw [this] at hok; cases hok
    | some r =>
      obtain ⟨states', conns⟩ := r
      have hD : (sq.determine 0).1 = Fsm.swapFrom sq.removeEpsilons (sq.removeEpsilons.buildDetermined states' conns) := by
        unfold Fsm.determine
        rw [if_neg (by simp [hq.nd])]
        simp only [hrun]
      rw [hD]
      exact (build_fields sq.removeEpsilons states' conns).2.2.1
  rw [hlet]
  have hl9 : ∀ c < 9, IsLetter c := fun c hc => ⟨by omega, by omega⟩
  refine letters_le hs.wf.let_wf hs.all ?_
  intro c hc
  obtain ⟨r, hr⟩ := Option.isSome_iff_exists.1 ((hs.all c).2 (hl9 c hc))
  obtain ⟨r', hr'⟩ := Option.isSome_iff_exists.1 ((hs.all 0).2 (hl9 0 (by omega)))
  rw [hr, hr']
  obtain ⟨e, he1, rfl, hm⟩ := (hs.wf.let_wf.inv_iff _ _).1 hr
  obtain ⟨e', he2, rfl, hm'⟩ := (hs.wf.let_wf.inv_iff _ _).1 hr'
  congr 1
  refine hs.exact e he1 e' he2 ?_
  intro q
  rw [hs.same _ _ hr, hs.same _ _ hr']
  by_cases hlt : q < sq.size
  · have hlt' : q < states.length := by rw [← hq.size]; exact hlt
    have hdst : ∀ d < 9, ∀ p, p ∈ sq.removeEpsilons.dst q d ↔ states[p]? = some (pairStep f ((states[q]?).getD (0, 0)) d).1 := by
      intro d hd p
      rw [hs.dst]
      have hk : states[q]? = some states[q] := List.getElem?_eq_getElem (by rw [← hq.size]; exact hlt)
      rw [hk, Option.getD_some, ← hq.edge _ _ _ _ hk (hl9 d hd)]
      constructor
      · rintro ⟨_, q', hr, e⟩
        have : q' = q := by
          cases hr with
          | refl => rfl
          | eps e _ =>
            rw [edge_iff, key_raw hq.raw] at e
            simp [Fsm.dst, hq.none] at e
        rw [← this]; exact e
      · intro e
        exact ⟨by omega, q, .refl _, e⟩
    have hk : states[q]? = some states[q] := List.getElem?_eq_getElem (by rw [← hq.size]; exact hlt)
    have hlt2 := hq.lt _ (List.mem_of_getElem? hk)
    have hps : pairStep f ((states[q]?).getD (0, 0)) c = pairStep f ((states[q]?).getD (0, 0)) 0 := by
      rw [hk, Option.getD_some, pairStep_eq, pairStep_eq, he c hc _ hlt2.1, he c hc _ hlt2.2]
    have heq : sq.removeEpsilons.dst q c = sq.removeEpsilons.dst q 0 := by
      ext p
      rw [hdst c hc, hdst 0 (by omega), hps]
    have hne : ∀ d < 9, ∃ S, sq.removeEpsilons.tr q d = some S := by
      intro d hd
      obtain ⟨l, hl⟩ := List.mem_iff_getElem?.1 (hq.next _ (List.mem_of_getElem? hk) d (hl9 d hd))
      have : l ∈ sq.removeEpsilons.dst q d := by rw [hdst d hd, hk]; exact hl
      rw [mem_dst] at this
      obtain ⟨S, hS, _⟩ := this
      exact ⟨S, hS⟩
    obtain ⟨S, hS⟩ := hne c hc
    obtain ⟨S', hS'⟩ := hne 0 (by omega)
    have e1 : sq.removeEpsilons.dst q c = S := by unfold Fsm.dst; rw [hS]; rfl
    have e2 : sq.removeEpsilons.dst q 0 = S' := by unfold Fsm.dst; rw [hS']; rfl
    rw [hS, hS', ← e1, ← e2, heq]
  · have : ∀ d, sq.removeEpsilons.tr q d = none := by
      intro d
      cases hd : sq.removeEpsilons.tr q d with
      | none => rfl
      | some S => exact absurd (hs.wf.tr_lt _ _ _ hd).1 (by rw [hs.size]; exact hlt)
    rw [this, this]

theorem go_equi {D N : Fsm} (hn : NfaSpec D N) (hok : N.determine.2 = true) {c : Nat} (hl : D.Equi c 0) (hc : c < 9) {q : Nat}
    (hq : q < N.determine.1.unsparse.size) : go N.determine.1.unsparse q c = go N.determine.1.unsparse q 0 := by
  have hl9 : ∀ c < 9, IsLetter c := fun c hc => ⟨by omega, by omega⟩
  have hck : charKind c = charKind 0 := by
    unfold charKind
    rw [if_pos (by omega), if_pos (by omega)]
  have he := det_equi hn.wf hn.nd hok (hl9 c hc) (hl9 0 (by omega)) (hn.equi (hl9 c hc) (hl9 0 (by omega)) hck hl)
  have hdet := ((determine_spec hn.wf hn.nd 0).1 hok).1
  generalize N.determine.1 = M at *
  have h1 := (go_unsparse hdet hq (hl9 c hc)).2 rfl
  rw [he] at h1
  exact (go_unsparse hdet hq (hl9 0 (by omega))).1 h1

/-- If what `sepRe` returns becomes a small automaton, none of the calls fails. -/
theorem small_ok {re sep f : Fsm} (h : re.Good) (h2 : sep.Good) (he : [] ∉ re.Lang) (ht : Unmarked re) (ht2 : Unmarked sep)
    (hf : sepRe re sep = some f) (hok : f.determine.2 = true) (hD : f.determine.1.size ≤ 44) (hl : ∀ c < 9, f.determine.1.Equi c 0) :
    CtorOk re sep ∧ ∀ g, countFsm re sep = some g → g.letters.size ≤ 256 ∧ g.size ≤ 194481 := by
  obtain ⟨f1, f2, f3⟩ := sepRe_spec h h2 he hf
  obtain ⟨d1, d2, -, -, d5, -, -⟩ := (determine_spec f1.wf f2 0).1 hok
  have hn := nfa_spec d1 d5 (fun q hq => determine_tags_size f2 hok hq) (TagsIn.determine unmarked_or (sepRe_unmarked ht ht2 hf) 0)
  obtain ⟨n1, n2⟩ := hn.bound (by clear * - hD; omega)
  have hm := mainFsm_spec h h2 he ht ht2 hf hok n1
  obtain ⟨states, hq⟩ := square_spec hm
  have hsz : (mainFsm f).size ≤ 441 := by
    have hu : ∀ g : Fsm, g.unsparse.size = g.size := fun _ => rfl
    unfold mainFsm
    rw [hu]
    exact n2.trans (by clear * - hD; omega)
  have hsq : (mainFsm f).size * (mainFsm f).size ≤ 441 * 441 := Nat.mul_le_mul hsz hsz
  obtain ⟨q1, q2⟩ := square_bound hq (hsq.trans (by norm_num))
  refine ⟨⟨f, hf, hok, n1, q1⟩, ?_⟩
  intro g hg
  obtain rfl : g = (square (mainFsm f)).determine.1 := by
    unfold countFsm at hg
    rw [hf] at hg
    exact (Option.some.inj hg).symm
  refine ⟨square_letters hq q1 ?_, q2.trans (hsq.trans (by norm_num))⟩
  intro c hc q hq'
  unfold mainFsm at hq' ⊢
  exact go_equi hn n1 (hl c hc) hc hq'

end Count
end Pire
