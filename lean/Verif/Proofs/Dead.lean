import Verif.Model.Dead
import Verif.Proofs.FsmMore
import Mathlib.Logic.Relation

/-! # Breadth-first search, dead states, prefixes -/

namespace Pire
namespace Fsm

open Spec Relation

/-! ### The search -/

/-- Loop invariant: `n` states, neighbours `adj`, seeds `S`; every queued or finished state is reachable, and every
finished one has all neighbours marked. -/
structure BfsInv (n : Nat) (adj : Nat → List Nat) (S : Nat → Prop) (s : BfsSt) (cur : List Nat) : Prop where
  sound : ∀ q, s.useless q = false → q < n ∧ ∃ r, S r ∧ ReflTransGen (fun a b => b ∈ adj a) r q
  seeds : ∀ q, S q → s.useless q = false
  queued : ∀ q ∈ s.queue, s.useless q = false
  closed : ∀ q, s.useless q = false → q ∉ s.queue → q ∉ cur → ∀ p ∈ adj q, s.useless p = false
  unch : ∀ q, s.unchecked q = false → s.useless q = false

/-- The number of states not yet marked. -/
def uselessCount (n : Nat) (s : BfsSt) : Nat := ((List.range n).filter fun i => s.useless i).length

theorem uselessCount_update {n : Nat} {u : Nat → Bool} {x : Nat} (hx : x < n) (hu : u x = true) :
    ((List.range n).filter fun i => Function.update u x false i).length + 1 =
      ((List.range n).filter fun i => u i).length := by
  induction n with
  | zero => omega
  | succ n ih =>
    rw [List.range_succ, List.filter_append, List.filter_append, List.length_append, List.length_append]
    by_cases hxn : x = n
    · subst hxn
      have : (List.filter (fun i => Function.update u x false i) (List.range x)) =
          List.filter (fun i => u i) (List.range x) := by
        apply List.filter_congr
        intro a ha
        rw [Function.update_of_ne (by have := List.mem_range.1 ha; omega)]
      rw [this]
      simp [hu]
    · have := ih (by omega)
      rw [List.filter_singleton, List.filter_singleton, Function.update_of_ne (by omega)]
      omega

theorem bfsVisit_fold {n : Nat} {adj : Nat → List Nat} {S : Nat → Prop} {tgt : Nat} (hadj : ∀ a, ∀ b ∈ adj a, b < n)
    (l : List Nat) (hl : ∀ x ∈ l, x ∈ adj tgt) {s : BfsSt} (hto : s.useless tgt = false)
    (h : BfsInv n adj S s [tgt]) :
    BfsInv n adj S (l.foldl bfsVisit s) [tgt] ∧ (∀ x ∈ l, (l.foldl bfsVisit s).useless x = false) ∧
      (∀ q, s.useless q = false → (l.foldl bfsVisit s).useless q = false) ∧
      uselessCount n (l.foldl bfsVisit s) + (l.foldl bfsVisit s).queue.length = uselessCount n s + s.queue.length := by
  induction l generalizing s with
  | nil => exact ⟨h, by simp, fun _ h => h, rfl⟩
  | cons x l ih =>
    rw [List.foldl_cons]
    have hx := hl x (by simp)
    have hxn := hadj tgt x hx
    by_cases hu : s.useless x = true
    · have hun : s.unchecked x = true := by
        by_contra hc
        rw [Bool.not_eq_true] at hc
        rw [h.unch x hc] at hu; cases hu
      have hs : bfsVisit s x = { s with useless := Function.update s.useless x false, queue := s.queue ++ [x] } := by
        unfold bfsVisit; rw [if_pos (by simp [hu, hun])]
      have hmono : ∀ q, s.useless q = false → Function.update s.useless x false q = false := by
        intro q hq; by_cases hqx : q = x
        · subst hqx; simp
        · rw [Function.update_of_ne hqx]; exact hq
      have h1 : BfsInv n adj S (bfsVisit s x) [tgt] := by
        rw [hs]
        refine ⟨?_, fun q hq => hmono q (h.seeds q hq), ?_, ?_, fun q hq => hmono q (h.unch q hq)⟩
        · intro q hq
          simp only at hq
          by_cases hqx : q = x
          · subst hqx
            obtain ⟨_, r, hr, hrr⟩ := h.sound tgt hto
            exact ⟨hxn, r, hr, hrr.tail hx⟩
          · rw [Function.update_of_ne hqx] at hq
            exact h.sound q hq
        · intro q hq
          simp only [List.mem_append, List.mem_singleton] at hq
          rcases hq with hq | rfl
          · exact hmono q (h.queued q hq)
          · simp
        · intro q hq hnq hnc p hp
          simp only [List.mem_append, List.mem_singleton, not_or] at hnq hq
          rw [Function.update_of_ne hnq.2] at hq
          exact hmono p (h.closed q hq hnq.1 hnc p hp)
      obtain ⟨k1, k2, k3, k4⟩ := ih (fun y hy => hl y (by simp [hy])) (s := bfsVisit s x)
        (by rw [hs]; exact hmono tgt hto) h1
      refine ⟨k1, ?_, ?_, ?_⟩
      · intro y hy
        rcases List.mem_cons.1 hy with rfl | hy
        · apply k3; rw [hs]; simp
        · exact k2 y hy
      · intro q hq; apply k3; rw [hs]; exact hmono q hq
      · rw [k4, hs]
        have := uselessCount_update (n := n) (u := s.useless) hxn hu
        simp only [uselessCount, List.length_append, List.length_singleton]
        omega
    · rw [Bool.not_eq_true] at hu
      have hs : bfsVisit s x = s := by unfold bfsVisit; rw [if_neg (by simp [hu])]
      rw [hs]
      obtain ⟨k1, k2, k3, k4⟩ := ih (fun y hy => hl y (by simp [hy])) hto h
      refine ⟨k1, ?_, k3, k4⟩
      intro y hy
      rcases List.mem_cons.1 hy with rfl | hy
      · exact k3 _ hu
      · exact k2 y hy

theorem bfs_inv {n : Nat} {adj : Nat → List Nat} {S : Nat → Prop} (hadj : ∀ a, ∀ b ∈ adj a, b < n) (fuel : Nat)
    {s : BfsSt} (h : BfsInv n adj S s []) (hfuel : uselessCount n s + s.queue.length ≤ fuel) :
    BfsInv n adj S (bfs adj fuel s) [] ∧ (bfs adj fuel s).queue = [] := by
  induction fuel generalizing s with
  | zero =>
    refine ⟨h, ?_⟩
    exact List.length_eq_zero_iff.1 (by simp only [bfs]; omega)
  | succ fuel ih =>
    unfold bfs
    split
    · rename_i hq
      exact ⟨h, hq⟩
    · rename_i tgt q hq
      have hto : s.useless tgt = false := h.queued tgt (by rw [hq]; simp)
      have h1 : BfsInv n adj S { s with queue := q } [tgt] := by
        refine ⟨h.sound, h.seeds, fun x hx => h.queued x (by rw [hq]; simp [hx]), ?_, h.unch⟩
        intro x hx hxq hxc p hp
        refine h.closed x hx ?_ (by simp) p hp
        rw [hq]; simp only [List.mem_cons, not_or]
        exact ⟨by simpa using hxc, hxq⟩
      obtain ⟨k1, k2, k3, k4⟩ := bfsVisit_fold hadj (adj tgt) (fun _ h => h) (s := { s with queue := q }) hto h1
      apply ih
      · refine ⟨k1.sound, k1.seeds, k1.queued, ?_, ?_⟩
        · intro x hx hxq _ p hp
          by_cases hxt : x = tgt
          · subst hxt; exact k2 p hp
          · exact k1.closed x hx hxq (by simpa using hxt) p hp
        · intro x hx
          simp only at hx ⊢
          by_cases hxt : x = tgt
          · subst hxt; exact k3 _ hto
          · rw [Function.update_of_ne hxt] at hx
            exact k1.unch x hx
      · simp only [uselessCount] at k4 hfuel ⊢
        rw [hq, List.length_cons] at hfuel
        omega

theorem bfsInit_inv (n : Nat) (adj : Nat → List Nat) (seed : Nat → Bool) :
    BfsInv n adj (fun i => i < n ∧ seed i = true) (bfsInit n seed) [] ∧
      uselessCount n (bfsInit n seed) + (bfsInit n seed).queue.length = n := by
  have gen : ∀ m, m ≤ n → ∀ s : BfsSt, s = (List.range m).foldl (fun s i => if seed i then
      ({ s with useless := Function.update s.useless i false, queue := s.queue ++ [i] } : BfsSt) else s)
      { unchecked := fun _ => true, useless := fun _ => true, queue := [] } →
      (∀ q, s.useless q = false ↔ q < m ∧ seed q = true) ∧ (∀ q, q ∈ s.queue ↔ q < m ∧ seed q = true) ∧
      s.unchecked = (fun _ => true) ∧ uselessCount n s + s.queue.length = n := by
    intro m
    induction m with
    | zero => rintro _ s rfl; simp [uselessCount]
    | succ m ih =>
      intro hm s1 hs1
      rw [List.range_succ, List.foldl_append] at hs1
      simp only [List.foldl_cons, List.foldl_nil] at hs1
      obtain ⟨h1, h2, h3, h4⟩ := ih (by omega) _ rfl
      generalize (List.range m).foldl (fun s i => if seed i then
        ({ s with useless := Function.update s.useless i false, queue := s.queue ++ [i] } : BfsSt) else s)
        { unchecked := fun _ => true, useless := fun _ => true, queue := [] } = s at h1 h2 h3 h4 hs1
      subst hs1
      by_cases hsd : seed m = true
      · rw [if_pos hsd]
        refine ⟨?_, ?_, h3, ?_⟩
        · intro q
          by_cases hq : q = m
          · subst hq; simp [hsd]
          · simp only [Function.update_of_ne hq, h1]
            constructor
            · rintro ⟨a, b⟩; exact ⟨by omega, b⟩
            · rintro ⟨a, b⟩; exact ⟨by omega, b⟩
        · intro q
          simp only [List.mem_append, h2, List.mem_singleton]
          constructor
          · rintro (⟨a, b⟩ | rfl)
            · exact ⟨by omega, b⟩
            · exact ⟨by omega, hsd⟩
          · rintro ⟨a, b⟩
            by_cases hq : q = m
            · exact .inr hq
            · exact .inl ⟨by omega, b⟩
        · have hu : s.useless m = true := by
            by_contra hc
            rw [Bool.not_eq_true] at hc
            have := ((h1 m).1 hc).1
            omega
          have := uselessCount_update (n := n) (u := s.useless) (x := m) (by omega) hu
          simp only [uselessCount, List.length_append, List.length_singleton] at h4 ⊢
          omega
      · rw [if_neg hsd]
        refine ⟨?_, ?_, h3, h4⟩
        · intro q
          rw [h1]
          constructor
          · rintro ⟨a, b⟩; exact ⟨by omega, b⟩
          · rintro ⟨a, b⟩
            refine ⟨?_, b⟩
            by_contra hc
            have : q = m := by omega
            subst this; exact hsd b
        · intro q
          rw [h2]
          constructor
          · rintro ⟨a, b⟩; exact ⟨by omega, b⟩
          · rintro ⟨a, b⟩
            refine ⟨?_, b⟩
            by_contra hc
            have : q = m := by omega
            subst this; exact hsd b
  obtain ⟨h1, h2, h3, h4⟩ := gen n le_rfl _ rfl
  refine ⟨⟨?_, ?_, ?_, ?_, ?_⟩, h4⟩
  · intro q hq
    have := (h1 q).1 hq
    exact ⟨this.1, q, this, .refl⟩
  · intro q hq; exact (h1 q).2 hq
  · intro q hq; exact (h1 q).2 ((h2 q).1 hq)
  · intro q hq hnq; exact absurd ((h2 q).2 ((h1 q).1 hq)) hnq
  · intro q hq
    unfold bfsInit at hq
    rw [h3] at hq; cases hq

/-- The search marks exactly the states reachable from the seeds, and the queue is empty after `n` iterations. -/
theorem bfs_spec (n : Nat) (adj : Nat → List Nat) (hadj : ∀ a, ∀ b ∈ adj a, b < n) (seed : Nat → Bool) :
    (∀ q, (bfs adj n (bfsInit n seed)).useless q = false ↔
      ∃ r, r < n ∧ seed r = true ∧ ReflTransGen (fun a b => b ∈ adj a) r q) ∧
    (bfs adj n (bfsInit n seed)).queue = [] := by
  obtain ⟨h1, h2⟩ := bfsInit_inv n adj seed
  obtain ⟨k1, k2⟩ := bfs_inv hadj n h1 (le_of_eq h2)
  refine ⟨?_, k2⟩
  intro q
  constructor
  · intro hq
    obtain ⟨_, r, hr, hrr⟩ := k1.sound q hq
    exact ⟨r, hr.1, hr.2, hrr⟩
  · rintro ⟨r, hr1, hr2, hrr⟩
    have h0 := k1.seeds r ⟨hr1, hr2⟩
    clear hr1 hr2
    induction hrr with
    | refl => exact h0
    | tail _ e ih => exact k1.closed _ ih (by rw [k2]; simp) (by simp) _ e

/-! ### Dead states -/

/-- One transition, whatever the letter. -/
def Step (f : Fsm) (a b : Nat) : Prop := ∃ c, f.Edge a c b

theorem step_iff {f : Fsm} (h : f.WF) (hc : f.Coh) {a b : Nat} : f.Step a b ↔ ∃ c, b ∈ f.dst a c := by
  constructor
  · rintro ⟨c, e⟩; exact ⟨_, edge_iff.1 e⟩
  · rintro ⟨c, hb⟩
    cases hi : f.letters.inv c with
    | none =>
      refine ⟨c, edge_iff.2 ?_⟩
      rw [h.key_eq_repOr, Partition.repOr, hi]; exact hb
    | some r =>
      refine ⟨c, edge_iff.2 ?_⟩
      rw [h.key_eq_repOr, Partition.repOr, hi]
      rcases hc a c r hi with h1 | h1
      · rw [dst, h1] at hb; simp at hb
      · rw [dst, h1] at hb; exact hb

theorem reach_iff_run {f : Fsm} {a b : Nat} : ReflTransGen f.Step a b ↔ ∃ w, Run f.Edge a w b := by
  constructor
  · intro h
    induction h using ReflTransGen.head_induction_on with
    | refl => exact ⟨[], .refl _⟩
    | head e _ ih =>
      obtain ⟨c, e⟩ := e
      obtain ⟨w, hw⟩ := ih
      by_cases hc : c = 257
      · subst hc; exact ⟨w, .eps e hw⟩
      · exact ⟨c :: w, .step hc e hw⟩
  · rintro ⟨w, hw⟩
    induction hw with
    | refl => exact .refl
    | eps e _ ih => exact .head ⟨_, e⟩ ih
    | step _ e _ ih => exact .head ⟨_, e⟩ ih

theorem digraph_dst {f : Fsm} (h : f.WF) (inv : Bool) (a b : Nat) :
    b ∈ (f.digraph inv).dst a 0 ↔ if inv then ∃ c, a ∈ f.dst b c else ∃ c, b ∈ f.dst a c := by
  unfold digraph
  rw [mem_dst_connectAll]
  have h0 : b ∉ (init.resize f.size).dst a 0 := by simp [dst, init, resize]
  simp only [h0, false_or, List.mem_flatMap, List.mem_range, List.mem_map, Prod.exists]
  cases inv
  · simp only [Bool.false_eq_true, if_false, Prod.mk.injEq]
    constructor
    · rintro ⟨q, _, c, p, hm, rfl, rfl, _⟩
      exact ⟨c, (mem_rowEdges.1 hm).2⟩
    · rintro ⟨c, hb⟩
      have := h.dst_lt hb
      exact ⟨a, this.1, c, b, mem_rowEdges.2 ⟨this.2.1, hb⟩, by simp⟩
  · simp only [if_true, Prod.mk.injEq]
    constructor
    · rintro ⟨q, _, c, p, hm, rfl, rfl, _⟩
      exact ⟨c, (mem_rowEdges.1 hm).2⟩
    · rintro ⟨c, hb⟩
      have := h.dst_lt hb
      exact ⟨b, this.1, c, a, mem_rowEdges.2 ⟨this.2.1, hb⟩, by simp⟩

theorem useless_spec {f : Fsm} (h : f.WF) (hc : f.Coh) (q : Nat) :
    (f.uselessStates false q = false ↔ ∃ w, Run f.Edge f.initial w q) ∧
    (f.uselessStates true q = false ↔ ∃ w, w ∈ f.LangFrom q) := by
  have hadj : ∀ inv, ∀ a, ∀ b ∈ elems ((f.digraph inv).dst a 0), b < f.size := by
    intro inv a b hb
    rw [mem_elems, digraph_dst h] at hb
    cases inv
    · obtain ⟨c, hb⟩ := hb; exact (h.dst_lt hb).2.2
    · obtain ⟨c, hb⟩ := hb; exact (h.dst_lt hb).1
  constructor
  · unfold uselessStates
    rw [(bfs_spec _ _ (hadj false) _).1]
    have hrel : (fun a b => b ∈ elems ((f.digraph false).dst a 0)) = f.Step := by
      funext a b
      rw [mem_elems, eq_iff_iff, digraph_dst h, step_iff h hc]; rfl
    rw [hrel]
    constructor
    · rintro ⟨r, _, hr, hrr⟩
      have : f.initial = r := by simpa using hr
      subst this
      exact reach_iff_run.1 hrr
    · intro hw
      exact ⟨f.initial, h.init_lt, by simp, reach_iff_run.2 hw⟩
  · unfold uselessStates
    rw [(bfs_spec _ _ (hadj true) _).1]
    have hrel : (fun a b => b ∈ elems ((f.digraph true).dst a 0)) = Function.swap f.Step := by
      funext a b
      rw [mem_elems, eq_iff_iff, digraph_dst h, Function.swap, step_iff h hc]; rfl
    rw [hrel]
    constructor
    · rintro ⟨r, _, hr, hrr⟩
      have hr : r ∈ f.finals := by simpa [isFinal] using hr
      obtain ⟨w, hw⟩ := reach_iff_run.1 (reflTransGen_swap.1 hrr)
      exact ⟨w, r, hr, hw⟩
    · rintro ⟨w, r, hr, hw⟩
      exact ⟨r, h.fin_lt r hr, by simpa [isFinal] using hr, reflTransGen_swap.2 (reach_iff_run.2 ⟨w, hw⟩)⟩

theorem mem_deadStates {f : Fsm} (h : f.WF) (hc : f.Coh) (q : Nat) :
    q ∈ f.deadStates ↔ q < f.size ∧ ((¬ ∃ w, Run f.Edge f.initial w q) ∨ ¬ ∃ w, w ∈ f.LangFrom q) := by
  obtain ⟨h1, h2⟩ := useless_spec h hc q
  rw [← h1, ← h2]
  unfold deadStates
  simp only [Finset.mem_union, Finset.mem_filter, Finset.mem_range, Bool.not_eq_false]
  tauto

/-! ### RemoveDeadEnds -/

theorem foldl_removeState (l : List Nat) (f : Fsm) :
    (l.foldl removeState f).size = f.size ∧ (l.foldl removeState f).initial = f.initial ∧
    (l.foldl removeState f).finals = f.finals ∧ (l.foldl removeState f).letters = f.letters ∧
    (∀ q c, (l.foldl removeState f).tr q c = if q ∈ l then none else (f.tr q c).map fun s => s.filter (· ∉ l)) := by
  induction l generalizing f with
  | nil =>
    refine ⟨rfl, rfl, rfl, rfl, ?_⟩
    intro q c
    simp
  | cons i l ih =>
    obtain ⟨h1, h2, h3, h4, h5⟩ := ih (f.removeState i)
    refine ⟨h1, h2, h3, h4, ?_⟩
    intro q c
    rw [List.foldl_cons, h5]
    by_cases hq : q = i
    · subst hq; simp [removeState]
    · simp only [removeState, List.mem_cons, hq, false_or, if_false]
      by_cases hql : q ∈ l
      · simp [hql]
      · rw [if_neg hql, if_neg hql]
        cases f.tr q c with
        | none => rfl
        | some s =>
          simp only [Option.map_some, Option.some.injEq]
          ext x
          simp only [Finset.mem_filter, Finset.mem_erase, not_or]
          tauto

theorem removeDeadEnds_fields (f : Fsm) :
    f.removeDeadEnds.size = f.size ∧ f.removeDeadEnds.initial = f.initial ∧ f.removeDeadEnds.finals = f.finals ∧
    f.removeDeadEnds.letters = f.letters ∧ f.removeDeadEnds.isAlt = false := by
  obtain ⟨h1, h2, h3, h4, _⟩ := foldl_removeState (elems f.deadStates) f
  exact ⟨h1, h2, h3, h4, rfl⟩

theorem removeDeadEnds_tr (f : Fsm) (q c : Nat) : f.removeDeadEnds.tr q c =
    if q ∈ f.deadStates then none else (f.tr q c).map fun s => s.filter (· ∉ f.deadStates) := by
  obtain ⟨_, _, _, _, h5⟩ := foldl_removeState (elems f.deadStates) f
  change (List.foldl removeState f (elems f.deadStates)).tr q c = _
  rw [h5]
  simp only [mem_elems]

theorem removeDeadEnds_edge (f : Fsm) (q c p : Nat) :
    f.removeDeadEnds.Edge q c p ↔ f.Edge q c p ∧ q ∉ f.deadStates ∧ p ∉ f.deadStates := by
  rw [edge_iff, edge_iff, key_congr (removeDeadEnds_fields f).2.2.2.1, dst, dst, removeDeadEnds_tr]
  by_cases hq : q ∈ f.deadStates
  · simp [hq]
  · rw [if_neg hq]
    cases f.tr q (f.key c) <;> simp [hq]

theorem WF.removeDeadEnds {f : Fsm} (h : f.WF) : f.removeDeadEnds.WF := by
  obtain ⟨h1, h2, h3, h4, _⟩ := removeDeadEnds_fields f
  refine ⟨by rw [h1, h2]; exact h.init_lt, by rw [h1, h3]; exact h.fin_lt, ?_, by rw [h4]; exact h.let_wf,
    by rw [h4]; exact h.let_lt⟩
  intro q c S hS
  rw [removeDeadEnds_tr] at hS
  split at hS
  · cases hS
  · rw [Option.map_eq_some_iff] at hS
    obtain ⟨T, hT, rfl⟩ := hS
    obtain ⟨k1, k2, k3⟩ := h.tr_lt q c T hT
    rw [h1]
    exact ⟨k1, k2, fun p hp => k3 p (Finset.mem_filter.1 hp).1⟩

theorem Coh.removeDeadEnds {f : Fsm} (h : f.Coh) : f.removeDeadEnds.Coh := by
  intro q c r hr
  rw [(removeDeadEnds_fields f).2.2.2.1] at hr
  rw [removeDeadEnds_tr, removeDeadEnds_tr]
  by_cases hq : q ∈ f.deadStates
  · simp [hq]
  · rw [if_neg hq, if_neg hq]
    rcases h q c r hr with h1 | h1 <;> simp [h1]

/-- A path from a reachable state tgt a useful one never meets a dead state. -/
theorem run_avoids_dead {f : Fsm} (h : f.WF) (hc : f.Coh) {q w p : _} (hr : Run f.Edge q w p)
    (hq : ∃ u, Run f.Edge f.initial u q) (hp : ∃ v, v ∈ f.LangFrom p) : Run f.removeDeadEnds.Edge q w p := by
  have live : ∀ x, (∃ u, Run f.Edge f.initial u x) → (∃ v, v ∈ f.LangFrom x) → x ∉ f.deadStates := by
    intro x h1 h2 hd
    rcases ((mem_deadStates h hc x).1 hd).2 with h3 | h3
    · exact h3 h1
    · exact h3 h2
  have fromEnd : ∀ {x w'}, Run f.Edge x w' p → ∃ v, v ∈ f.LangFrom x := by
    intro x w' hx
    obtain ⟨v, r, hr, hv⟩ := hp
    exact ⟨w' ++ v, r, hr, hx.trans hv⟩
  induction hr with
  | refl => exact .refl _
  | @eps q q' w p e h' ih =>
    obtain ⟨u, hu⟩ := hq
    have hu' : ∃ u, Run f.Edge f.initial u q' := ⟨u ++ [], hu.trans (Run.oneEps e)⟩
    exact .eps ((removeDeadEnds_edge _ _ _ _).2 ⟨e, live _ ⟨u, hu⟩ (fromEnd (.eps e h')), live _ hu' (fromEnd h')⟩)
      (ih hu' hp fromEnd)
  | @step q c q' w p hc' e h' ih =>
    obtain ⟨u, hu⟩ := hq
    have hu' : ∃ u, Run f.Edge f.initial u q' := ⟨u ++ [c], hu.trans (Run.one hc' e)⟩
    exact .step hc' ((removeDeadEnds_edge _ _ _ _).2 ⟨e, live _ ⟨u, hu⟩ (fromEnd (.step hc' e h')), live _ hu' (fromEnd h')⟩)
      (ih hu' hp fromEnd)

theorem lang_removeDeadEnds {f : Fsm} (h : f.WF) (hc : f.Coh) : f.removeDeadEnds.Lang = f.Lang := by
  obtain ⟨h1, h2, h3, h4, _⟩ := removeDeadEnds_fields f
  ext w
  rw [mem_lang, mem_lang, h2, h3]
  constructor
  · rintro ⟨p, hp, hr⟩
    exact ⟨p, hp, hr.mono fun a c b e => ((removeDeadEnds_edge _ _ _ _).1 e).1⟩
  · rintro ⟨p, hp, hr⟩
    exact ⟨p, hp, run_avoids_dead h hc hr ⟨[], .refl _⟩ ⟨[], p, hp, .refl _⟩⟩

/-! ### MakePrefix -/

theorem makePrefix_finals (f : Fsm) (q : Nat) : q ∈ f.makePrefix.finals ↔
    q ∈ f.finals ∨ (q < f.size ∧ rowKeys (f.removeDeadEnds.tr q) ≠ []) := by
  obtain ⟨h1, h2, h3, h4, _⟩ := removeDeadEnds_fields f
  have gen : ∀ (l : List Nat) (s : Finset Nat), q ∈ l.foldl
      (fun s i => if rowKeys (f.removeDeadEnds.tr i) = [] then s else insert i s) s ↔
      q ∈ s ∨ (q ∈ l ∧ rowKeys (f.removeDeadEnds.tr q) ≠ []) := by
    intro l
    induction l with
    | nil => simp
    | cons i l ih =>
      intro s
      rw [List.foldl_cons, ih]
      by_cases hi : rowKeys (f.removeDeadEnds.tr i) = []
      · rw [if_pos hi, List.mem_cons]
        constructor
        · rintro (h | h)
          · exact .inl h
          · exact .inr ⟨.inr h.1, h.2⟩
        · rintro (h | ⟨rfl | h, h'⟩)
          · exact .inl h
          · exact absurd hi h'
          · exact .inr ⟨h, h'⟩
      · rw [if_neg hi, List.mem_cons, Finset.mem_insert]
        constructor
        · rintro ((rfl | h) | h)
          · exact .inr ⟨.inl rfl, hi⟩
          · exact .inl h
          · exact .inr ⟨.inr h.1, h.2⟩
        · rintro (h | ⟨rfl | h, h'⟩)
          · exact .inl (.inr h)
          · exact .inl (.inl rfl)
          · exact .inr ⟨h, h'⟩
  unfold makePrefix
  simp only [clearHints]
  rw [gen, h3, h1, List.mem_range]

theorem WF.makePrefix {f : Fsm} (h : f.WF) : f.makePrefix.WF := by
  refine h.removeDeadEnds.congr rfl h.removeDeadEnds.init_lt ?_ rfl rfl
  intro q hq
  change q < f.removeDeadEnds.size
  rw [(removeDeadEnds_fields f).1]
  rcases (makePrefix_finals f q).1 hq with hq | hq
  · exact h.fin_lt q hq
  · exact hq.1

theorem lang_makePrefix {f : Fsm} (h : f.WF) (hc : f.Coh) : f.makePrefix.Lang = prefixes f.Lang := by
  obtain ⟨h1, h2, h3, h4, _⟩ := removeDeadEnds_fields f
  have hE : f.makePrefix.Edge = f.removeDeadEnds.Edge := edge_congr rfl rfl
  have hI : f.makePrefix.initial = f.initial := h2
  ext w
  rw [mem_lang, hI, hE]
  constructor
  · rintro ⟨p, hp, hr⟩
    have hr' : Run f.Edge f.initial w p := hr.mono fun a c b e => ((removeDeadEnds_edge _ _ _ _).1 e).1
    rcases (makePrefix_finals f p).1 hp with hp | ⟨hps, hp⟩
    · exact ⟨[], p, hp, by simpa using hr'⟩
    · have hnd : p ∉ f.deadStates := by
        intro hd
        apply hp
        rw [List.eq_nil_iff_forall_not_mem]
        intro c hc'
        have := (mem_rowKeys.1 hc').2
        rw [removeDeadEnds_tr, if_pos hd] at this
        cases this
      have : ∃ v, v ∈ f.LangFrom p := by
        by_contra hno
        exact hnd ((mem_deadStates h hc p).2 ⟨hps, .inr hno⟩)
      obtain ⟨v, r, hr, hv⟩ := this
      exact ⟨v, r, hr, hr'.trans hv⟩
  · rintro ⟨v, r, hr, hv⟩
    obtain ⟨p, hp1, hp2⟩ := hv.split
    refine ⟨p, ?_, run_avoids_dead h hc hp1 ⟨[], .refl _⟩ ⟨v, r, hr, hp2⟩⟩
    rw [makePrefix_finals]
    have hp2' := run_avoids_dead h hc hp2 ⟨w, hp1⟩ ⟨[], r, hr, .refl _⟩
    have key : ∀ {c b}, f.removeDeadEnds.Edge p c b → rowKeys (f.removeDeadEnds.tr p) ≠ [] := by
      intro c b e he
      have hm := edge_iff.1 e
      have hlt := h.removeDeadEnds.dst_lt hm
      obtain ⟨S, hS, _⟩ := mem_dst.1 hm
      have : f.removeDeadEnds.key c ∈ rowKeys (f.removeDeadEnds.tr p) := mem_rowKeys.2 ⟨hlt.2.1, by rw [hS]; rfl⟩
      rw [he] at this; cases this
    cases hp2' with
    | refl => exact .inl hr
    | eps e _ => exact .inr ⟨h.run_lt hp1 h.init_lt, key e⟩
    | step _ e _ => exact .inr ⟨h.run_lt hp1 h.init_lt, key e⟩

end Fsm
end Pire
