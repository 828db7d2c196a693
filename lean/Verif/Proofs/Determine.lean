import Verif.Proofs.DetGeneric
import Verif.Proofs.Epsilon

/-! # Determinisation of an automaton -/

namespace Pire
namespace Fsm

open Spec

/-- A determined automaton: classes cover all letters, every row has exactly one target for each class and no other
entries. -/
structure Det (f : Fsm) : Prop where
  wf : f.WF
  flag : f.determined = true
  all : ∀ c, (f.letters.inv c).isSome = true ↔ c < 264 ∧ c ≠ 257
  total : ∀ q < f.size, ∀ e ∈ f.letters.set, ∃ p, f.tr q e.rep = some {p}
  keys : ∀ q c, f.tr q c ≠ none → f.letters.inv c = some c

theorem tr_eq_some_dst {f : Fsm} {q c p : Nat} (hp : p ∈ f.dst q c) : f.tr q c = some (f.dst q c) := by
  obtain ⟨S, hS, _⟩ := mem_dst.1 hp
  rw [dst, hS]; rfl

theorem Det.coh {f : Fsm} (h : f.Det) : f.Coh := by
  intro q c r hr
  by_cases hc : f.tr q c = none
  · exact .inl hc
  · have := h.keys q c hc
    rw [hr] at this
    cases this; exact .inr rfl

theorem Det.exists_edge {f : Fsm} (h : f.Det) {q c : Nat} (hq : q < f.size) (hc : IsLetter c) : ∃ p, f.Edge q c p := by
  have := (h.all c).2 hc
  obtain ⟨r, hr⟩ := Option.isSome_iff_exists.1 this
  obtain ⟨e, he, rfl, hm⟩ := (h.wf.let_wf.inv_iff _ _).1 hr
  obtain ⟨p, hp⟩ := h.total q hq e he
  refine ⟨p, edge_iff.2 ?_⟩
  rw [h.wf.key_eq_repOr, Partition.repOr, hr, Option.getD_some, dst, hp]
  simp

theorem Det.edge_unique {f : Fsm} (h : f.Det) {q c p p' : Nat} (e : f.Edge q c p) (e' : f.Edge q c p') : p = p' := by
  have hlt := h.wf.edge_lt e
  rw [edge_iff] at e e'
  have hk : f.tr q (f.key c) ≠ none := by
    rw [tr_eq_some_dst e]; simp
  have := h.keys _ _ hk
  obtain ⟨en, hen, hrep, _⟩ := (h.wf.let_wf.inv_iff _ _).1 this
  obtain ⟨x, hx⟩ := h.total q hlt.1 en hen
  rw [hrep] at hx
  rw [dst, hx] at e e'
  simp at e e'
  rw [e, e']

theorem Det.no_eps {f : Fsm} (h : f.Det) {q p : Nat} : ¬ f.Edge q 257 p := by
  intro e
  rw [edge_iff] at e
  have hk : f.tr q (f.key 257) ≠ none := by
    rw [tr_eq_some_dst e]; simp
  have := h.keys _ _ hk
  have h257 : f.key 257 = 257 := by simp [key]
  rw [h257] at this
  have := (h.all 257).1 (by rw [this]; rfl)
  exact this.2 rfl

/-! ### The determination task -/

theorem RESpec.next_mem {f g : Fsm} (h : RESpec f g) {s : Finset Nat} {e : PClass} (he : e ∈ g.letters.set) (p : Nat) :
    p ∈ g.determineTask.next s e.rep ↔ ∃ q ∈ s, p ∈ g.dst q e.rep := by
  have hinv := h.wf.let_wf.inv_of_mem he (h.wf.let_wf.rep_mem e he)
  have htr : g.translate e.rep = e.rep := by
    unfold translate
    split
    · rfl
    · rw [Partition.representative, hinv]; rfl
  simp only [determineTask, Finset.mem_biUnion, destinations, htr]

theorem build_dst {f : Fsm} {states : List (Finset Nat)} {conns : List (Nat × Nat × Nat)} (x c y : Nat) :
    y ∈ (f.buildDetermined states conns).dst x c ↔
      (x < states.length ∧ y = x ∧ (∃ j ∈ states.getD x ∅, j ∈ f.terminalStates) ∧ ∃ e ∈ f.letters.set, e.rep = c) ∨
      (x, y, c) ∈ conns := by
  unfold buildDetermined
  change y ∈ (Fsm.connectAll _ conns).dst x c ↔ _
  rw [mem_dst_connectAll]
  apply or_congr _ Iff.rfl
  change y ∈ (Fsm.connectAll _ _).dst x c ↔ _
  rw [mem_dst_connectAll]
  have h0 : y ∉ ({ (init.resize states.length) with initial := 0, determined := true, letters := f.letters, finals := ∅ } : Fsm).dst x c := by
    simp [dst, init, resize]
  simp only [h0, false_or, List.mem_flatMap, List.mem_range, mem_elems]
  constructor
  · rintro ⟨ns, hns, j, hj, hm⟩
    split at hm
    · rename_i hjt
      simp only [List.mem_map, Prod.mk.injEq] at hm
      obtain ⟨e, he, rfl, rfl, rfl⟩ := hm
      exact ⟨hns, rfl, ⟨j, hj, hjt⟩, e, he, rfl⟩
    · cases hm
  · rintro ⟨hx, rfl, ⟨j, hj, hjt⟩, e, he, rfl⟩
    exact ⟨y, hx, j, hj, by rw [if_pos hjt]; exact List.mem_map.2 ⟨e, he, rfl⟩⟩

theorem build_tr_some {f : Fsm} {states : List (Finset Nat)} {conns : List (Nat × Nat × Nat)} {x c : Nat} {T : Finset Nat}
    (hT : (f.buildDetermined states conns).tr x c = some T) : ∃ y, y ∈ (f.buildDetermined states conns).dst x c := by
  have h1 : ((f.buildDetermined states conns).tr x c).isSome = true := by rw [hT]; rfl
  unfold buildDetermined at h1
  change ((Fsm.connectAll _ conns).tr x c).isSome = true at h1
  rw [tr_connectAll_isSome] at h1
  rcases h1 with h1 | ⟨y, hy⟩
  · change ((Fsm.connectAll _ _).tr x c).isSome = true at h1
    rw [tr_connectAll_isSome] at h1
    rcases h1 with h1 | ⟨y, hy⟩
    · simp [init, resize] at h1
    · simp only [List.mem_flatMap, List.mem_range, mem_elems] at hy
      obtain ⟨ns, hns, j, hj, hm⟩ := hy
      split at hm
      · rename_i hjt
        simp only [List.mem_map, Prod.mk.injEq] at hm
        obtain ⟨e, he, rfl, rfl, rfl⟩ := hm
        exact ⟨ns, (build_dst _ _ _).2 (.inl ⟨hns, rfl, ⟨j, hj, hjt⟩, e, he, rfl⟩)⟩
      · cases hm
  · exact ⟨y, (build_dst _ _ _).2 (.inr hy)⟩

theorem build_fields (f : Fsm) (states : List (Finset Nat)) (conns : List (Nat × Nat × Nat)) :
    (f.buildDetermined states conns).size = states.length ∧ (f.buildDetermined states conns).initial = 0 ∧
    (f.buildDetermined states conns).letters = f.letters ∧ (f.buildDetermined states conns).determined = true ∧
    (f.buildDetermined states conns).isAlt = false ∧
    (∀ k, k ∈ (f.buildDetermined states conns).finals ↔ k < states.length ∧ ∃ j ∈ states.getD k ∅, j ∈ f.finals) := by
  have gen : ∀ (l) (g : Fsm), g.isAlt = false → (g.connectAll l).isAlt = false := by
    intro l g hg
    cases l with
    | nil => exact hg
    | cons t l => exact connectAll_isAlt _ _ (by simp)
  refine ⟨by simp [buildDetermined], by simp [buildDetermined], by simp [buildDetermined], by simp [buildDetermined], ?_, ?_⟩
  · unfold buildDetermined
    exact gen _ _ (gen _ _ rfl)
  · intro k
    simp [buildDetermined]

/-- Shape of the automaton built from a successful run. -/
theorem build_rows {f g : Fsm} (h : RESpec f g) {max : Nat} {states : List (Finset Nat)}
    {conns : List (Nat × Nat × Nat)} (hr : g.determineTask.RunSpec max states conns) {k : Nat} {s : Finset Nat}
    (hk : states[k]? = some s) {e : PClass} (he : e ∈ g.letters.set) :
    ∃ p, (∀ y, y ∈ (g.buildDetermined states conns).dst k e.rep ↔ y = p) ∧ p < states.length ∧
      (if ∃ j ∈ s, j ∈ g.terminalStates then p = k else states[p]? = some (g.determineTask.next s e.rep)) := by
  have hget : states.getD k ∅ = s := by rw [List.getD_eq_getElem?_getD, hk]; rfl
  have hlt := (List.getElem?_eq_some_iff.1 hk).1
  by_cases ht : ∃ j ∈ s, j ∈ g.terminalStates
  · refine ⟨k, ?_, hlt, by rw [if_pos ht]⟩
    intro y
    rw [build_dst, hget]
    constructor
    · rintro (⟨_, hy, _⟩ | hc)
      · exact hy
      · obtain ⟨s', hs', hreq, _⟩ := (hr.conns _ _ _).1 hc
        rw [hk] at hs'; cases hs'
        simp only [determineTask, decide_eq_true_eq] at hreq
        obtain ⟨j, hj, hjt⟩ := ht
        exact absurd hjt (hreq j hj)
    · rintro rfl
      exact .inl ⟨hlt, rfl, ht, e, he, rfl⟩
  · have hreq : g.determineTask.required s = true := by
      simp only [determineTask, decide_eq_true_eq]
      intro q hq hqt
      exact ht ⟨q, hq, hqt⟩
    have hreach : g.determineTask.Reach s := (hr.mem s).1 (List.mem_of_getElem? hk)
    have hmem := (hr.mem _).2 (.step hreach hreq he)
    obtain ⟨p, hp⟩ := List.mem_iff_getElem?.1 hmem
    refine ⟨p, ?_, (List.getElem?_eq_some_iff.1 hp).1, by rw [if_neg ht]; exact hp⟩
    intro y
    rw [build_dst, hget]
    constructor
    · rintro (⟨_, _, ht', _⟩ | hc)
      · exact absurd ht' ht
      · obtain ⟨s', hs', _, _, hy⟩ := (hr.conns _ _ _).1 hc
        rw [hk] at hs'; cases hs'
        have h1 := (List.getElem?_eq_some_iff.1 hy)
        have h2 := (List.getElem?_eq_some_iff.1 hp)
        exact (hr.nodup.getElem_inj_iff).1 (h1.2.trans h2.2.symm)
    · rintro rfl
      exact .inr ((hr.conns _ _ _).2 ⟨s, hk, hreq, ⟨e, he, rfl⟩, hp⟩)

theorem build_det {f g : Fsm} (h : RESpec f g) {max : Nat} {states : List (Finset Nat)}
    {conns : List (Nat × Nat × Nat)} (hr : g.determineTask.RunSpec max states conns) :
    (g.buildDetermined states conns).Det := by
  obtain ⟨b1, b2, b3, b4, b5, b6⟩ := build_fields g states conns
  have hkeys : ∀ q c y, y ∈ (g.buildDetermined states conns).dst q c → q < states.length ∧
      (∃ e ∈ g.letters.set, e.rep = c) := by
    intro q c y hy
    rcases (build_dst _ _ _).1 hy with ⟨h1, _, _, h2⟩ | hc
    · exact ⟨h1, h2⟩
    · obtain ⟨s, hs, _, h2, _⟩ := (hr.conns _ _ _).1 hc
      exact ⟨(List.getElem?_eq_some_iff.1 hs).1, h2⟩
  have hwf : (g.buildDetermined states conns).WF := by
    refine ⟨?_, ?_, ?_, by rw [b3]; exact h.wf.let_wf, by rw [b3]; exact h.wf.let_lt⟩
    · rw [b1, b2]; exact (List.getElem?_eq_some_iff.1 hr.zero).1
    · intro q hq; rw [b1]; exact ((b6 q).1 hq).1
    · intro q c T hT
      obtain ⟨y, hy⟩ := build_tr_some hT
      obtain ⟨h1, e, he, rfl⟩ := hkeys q c y hy
      have hs : states[q]? = some states[q] := List.getElem?_eq_getElem h1
      obtain ⟨p, hp1, hp2, _⟩ := build_rows h hr hs he
      have hTd : T = (g.buildDetermined states conns).dst q e.rep := by rw [dst, hT]; rfl
      have hrep := h.wf.let_wf.inv_of_mem he (h.wf.let_wf.rep_mem e he)
      rw [b1]
      refine ⟨h1, (h.wf.let_lt _ _ hrep).1, ?_⟩
      intro z hz
      rw [hTd, hp1] at hz
      rw [hz]; exact hp2
  refine ⟨hwf, b4, by rw [b3]; exact h.all, ?_, ?_⟩
  · intro q hq e he
    rw [b1] at hq; rw [b3] at he
    have hs : states[q]? = some states[q] := List.getElem?_eq_getElem hq
    obtain ⟨p, hp1, hp2, _⟩ := build_rows h hr hs he
    refine ⟨p, ?_⟩
    rw [tr_eq_some_dst ((hp1 p).2 rfl)]
    congr 1
    ext y; rw [hp1, Finset.mem_singleton]
  · intro q c hc
    rw [b3]
    cases hT : (g.buildDetermined states conns).tr q c with
    | none => exact absurd hT hc
    | some T =>
      obtain ⟨y, hy⟩ := build_tr_some hT
      obtain ⟨_, e, he, rfl⟩ := hkeys q c y hy
      exact h.wf.let_wf.inv_of_mem he (h.wf.let_wf.rep_mem e he)

/-- The edge on a letter, in terms of classes. -/
theorem edge_of_class {f : Fsm} (h : f.WF) {e : PClass} (he : e ∈ f.letters.set) {c : Nat} (hc : c ∈ e.members)
    (q p : Nat) : f.Edge q c p ↔ p ∈ f.dst q e.rep := by
  rw [edge_iff, h.key_eq_repOr, Partition.repOr, h.let_wf.inv_of_mem he hc, Option.getD_some]

theorem mem_langFrom_nil_noeps {f : Fsm} (hne : ∀ q p, ¬ f.Edge q 257 p) (q : Nat) : [] ∈ f.LangFrom q ↔ q ∈ f.finals := by
  constructor
  · rintro ⟨p, hp, hr⟩
    cases hr with
    | refl => exact hp
    | eps e _ => exact absurd e (hne _ _)
  · intro hq; exact ⟨q, hq, .refl _⟩

theorem mem_langFrom_cons_noeps {f : Fsm} (hne : ∀ q p, ¬ f.Edge q 257 p) (q c : Nat) (w : List Nat) :
    c :: w ∈ f.LangFrom q ↔ c ≠ 257 ∧ ∃ q', f.Edge q c q' ∧ w ∈ f.LangFrom q' := by
  constructor
  · rintro ⟨p, hp, hr⟩
    cases hr with
    | eps e _ => exact absurd e (hne _ _)
    | step hc e h' => exact ⟨hc, _, e, p, hp, h'⟩
  · rintro ⟨hc, q', e, p, hp, hr⟩
    exact ⟨p, hp, .step hc e hr⟩

theorem build_langFrom {f g : Fsm} (h : RESpec f g) {max : Nat} {states : List (Finset Nat)}
    {conns : List (Nat × Nat × Nat)} (hr : g.determineTask.RunSpec max states conns) (w : List Nat) :
    ∀ (k : Nat) (s : Finset Nat), states[k]? = some s →
      (w ∈ (g.buildDetermined states conns).LangFrom k ↔ ∃ q ∈ s, w ∈ g.LangFrom q) := by
  have hdet := build_det h hr
  obtain ⟨b1, b2, b3, b4, b5, b6⟩ := build_fields g states conns
  set d := g.buildDetermined states conns with hd
  have dne : ∀ q p, ¬ d.Edge q 257 p := fun q p => hdet.no_eps
  have gne : ∀ q p, ¬ g.Edge q 257 p := fun q p e => ((h.edge _ _ _).1 e).1 rfl
  have hfin : ∀ k s, states[k]? = some s → (k ∈ d.finals ↔ ∃ q ∈ s, q ∈ g.finals) := by
    intro k s hk
    have hget : states.getD k ∅ = s := by rw [List.getD_eq_getElem?_getD, hk]; rfl
    rw [b6, hget]
    have := (List.getElem?_eq_some_iff.1 hk).1
    simp [this]
  -- terminal states accept every word
  have gterm : ∀ (w : List Nat), IsWord w → ∀ j ∈ g.terminalStates, w ∈ g.LangFrom j := by
    intro w
    induction w with
    | nil =>
      intro _ j hj
      rw [mem_langFrom_nil_noeps gne]
      exact (Finset.mem_filter.1 hj).1
    | cons c w ih =>
      intro hw j hj
      have hc := hw c (by simp)
      obtain ⟨r, hrr⟩ := Option.isSome_iff_exists.1 ((h.all c).2 hc)
      obtain ⟨e, he, rfl, hm⟩ := (h.wf.let_wf.inv_iff _ _).1 hrr
      rw [mem_langFrom_cons_noeps gne]
      refine ⟨hc.2, j, (edge_of_class h.wf he hm _ _).2 ((Finset.mem_filter.1 hj).2 e he), ih ?_ j hj⟩
      intro d hd; exact hw d (by simp [hd])
  induction w with
  | nil =>
    intro k s hk
    rw [mem_langFrom_nil_noeps dne, hfin k s hk]
    simp only [mem_langFrom_nil_noeps gne]
  | cons c w ih =>
    intro k s hk
    by_cases hc : IsLetter c
    · obtain ⟨r, hrr⟩ := Option.isSome_iff_exists.1 ((h.all c).2 hc)
      obtain ⟨e, he, rfl, hm⟩ := (h.wf.let_wf.inv_iff _ _).1 hrr
      obtain ⟨p, hp1, hp2, hp3⟩ := build_rows h hr hk he
      have hdE : ∀ y, d.Edge k c y ↔ y = p := by
        intro y
        rw [edge_of_class hdet.wf (by rw [b3]; exact he) hm]
        exact hp1 y
      rw [mem_langFrom_cons_noeps dne]
      simp only [hdE, exists_eq_left, ne_eq, hc.2, not_false_eq_true, true_and]
      split at hp3
      · rename_i ht
        subst hp3
        rw [ih p s hk]
        obtain ⟨j, hj, hjt⟩ := ht
        constructor
        · rintro ⟨q, hq, hw⟩
          refine ⟨j, hj, gterm (c :: w) ?_ j hjt⟩
          intro x hx
          rcases List.mem_cons.1 hx with rfl | hx
          · exact hc
          · exact h.wf.lang_word hw x hx
        · rintro ⟨q, hq, hw⟩
          refine ⟨j, hj, gterm w ?_ j hjt⟩
          intro x hx
          exact h.wf.lang_word hw x (by simp [hx])
      · rw [ih p _ hp3]
        constructor
        · rintro ⟨q', hq', hw⟩
          obtain ⟨q, hq, hqq⟩ := (h.next_mem he q').1 hq'
          refine ⟨q, hq, ?_⟩
          rw [mem_langFrom_cons_noeps gne]
          exact ⟨hc.2, q', (edge_of_class h.wf he hm _ _).2 hqq, hw⟩
        · rintro ⟨q, hq, hw⟩
          rw [mem_langFrom_cons_noeps gne] at hw
          obtain ⟨_, q', e', hw'⟩ := hw
          exact ⟨q', (h.next_mem he q').2 ⟨q, hq, (edge_of_class h.wf he hm _ _).1 e'⟩, hw'⟩
    · constructor
      · intro hw
        exact absurd (hdet.wf.lang_word hw c (by simp)) hc
      · rintro ⟨q, _, hw⟩
        exact absurd (h.wf.lang_word hw c (by simp)) hc

theorem Det.swapFrom {f d : Fsm} (h : d.Det) : (Fsm.swapFrom f d).Det :=
  ⟨h.wf.congr rfl h.wf.init_lt h.wf.fin_lt rfl rfl, h.flag, h.all, h.total, h.keys⟩

/-- What `Determine` does when the automaton is not yet determined. -/
theorem determine_spec {f : Fsm} (h : f.WF) (hnd : f.determined = false) (m : Nat) :
    ((f.determine m).2 = true → (f.determine m).1.Det ∧ (f.determine m).1.Lang = f.Lang ∧
      (f.determine m).1.size ≤ (if m ≠ 0 then m else 200000) + 1 ∧
      (f.determine m).1.initial = 0 ∧ (f.determine m).1.isAlt = false ∧ (f.determine m).1.sparsed = true ∧
      ∀ q < (f.determine m).1.size, ∃ w, Run (f.determine m).1.Edge (f.determine m).1.initial w q) ∧
    ((f.determine m).2 = false → (f.determine m).1 = f.removeEpsilons) := by
  have hs := removeEpsilons_spec h
  obtain ⟨r1, r2⟩ := DTask.run_spec (t := f.removeEpsilons.determineTask) hs.wf.let_wf (if m ≠ 0 then m else 200000)
  unfold determine
  rw [if_neg (by simp [hnd])]
  simp only
  cases hrun : f.removeEpsilons.determineTask.run (if m ≠ 0 then m else 200000) with
  | none => simp
  | some r =>
    obtain ⟨states, conns⟩ := r
    simp only [forall_const, Bool.true_eq_false, false_implies, and_true]
    have hr := r1 states conns hrun
    obtain ⟨b1, b2, b3, b4, b5, b6⟩ := build_fields f.removeEpsilons states conns
    have hE : (Fsm.swapFrom f.removeEpsilons (f.removeEpsilons.buildDetermined states conns)).Edge =
        (f.removeEpsilons.buildDetermined states conns).Edge := edge_congr rfl rfl
    refine ⟨(build_det hs hr).swapFrom, ?_, ?_, b2, b5, hs.sparsed, ?_⟩
    · have : (Fsm.swapFrom f.removeEpsilons (f.removeEpsilons.buildDetermined states conns)).Lang =
        (f.removeEpsilons.buildDetermined states conns).Lang := lang_congr hE rfl rfl
      rw [this]
      ext w
      rw [Lang, b2, build_langFrom hs hr w 0 _ hr.zero, ← lang_removeEpsilons h, Lang]
      simp [determineTask]
    · change (f.removeEpsilons.buildDetermined states conns).size ≤ _
      rw [b1]; exact hr.len
    · intro q hq
      change q < (f.removeEpsilons.buildDetermined states conns).size at hq
      rw [b1] at hq
      rw [hE]
      change ∃ w, Run (f.removeEpsilons.buildDetermined states conns).Edge
        (f.removeEpsilons.buildDetermined states conns).initial w q
      rw [b2]
      have key : ∀ s, f.removeEpsilons.determineTask.Reach s → ∀ k, states[k]? = some s →
          ∃ w, Run (f.removeEpsilons.buildDetermined states conns).Edge 0 w k := by
        intro s hs'
        induction hs' with
        | init =>
          intro k hk
          have h1 := (List.getElem?_eq_some_iff.1 hk)
          have h2 := (List.getElem?_eq_some_iff.1 hr.zero)
          have : k = 0 := (hr.nodup.getElem_inj_iff).1 (h1.2.trans h2.2.symm)
          exact ⟨[], this ▸ .refl _⟩
        | @step s e hs'' hreq he ih =>
          intro k hk
          have hm := (hr.mem s).2 hs''
          obtain ⟨i, hi⟩ := List.mem_iff_getElem?.1 hm
          obtain ⟨w, hw⟩ := ih i hi
          have hc := (hr.conns i k e.rep).2 ⟨s, hi, hreq, ⟨e, he, rfl⟩, hk⟩
          have hrep := hs.wf.let_wf.inv_of_mem he (hs.wf.let_wf.rep_mem e he)
          have hed : (f.removeEpsilons.buildDetermined states conns).Edge i e.rep k :=
            (edge_of_class (build_det hs hr).wf (by rw [b3]; exact he) (hs.wf.let_wf.rep_mem e he) _ _).2
              ((build_dst _ _ _).2 (.inr hc))
          exact ⟨w ++ [e.rep], hw.snoc (hs.wf.let_lt _ _ hrep).2 hed⟩
      have hsq : states[q]? = some states[q] := List.getElem?_eq_getElem hq
      exact key _ ((hr.mem _).1 (List.mem_of_getElem? hsq)) q hsq

end Fsm
end Pire
