import Verif.Proofs.GreedySym

/-!
# Greedy counters of concrete languages: the canonical automaton is the table
-/

namespace Pire
open Fsm Spec HalfFinal HalfFinal.Greedy
namespace Greedy

theorem Tab.run_append (A : Tab) (q : Nat) (u v : List Nat) : A.run q (u ++ v) = (A.run q u).bind fun p => A.run p v := by
  induction u generalizing q with
  | nil => rfl
  | cons c u ih =>
    show (A.step q c).bind (fun p => A.run p (u ++ v)) = ((A.step q c).bind fun p => A.run p u).bind fun p => A.run p v
    cases A.step q c with
    | none => rfl
    | some p => exact ih p

theorem Tab.acc_append {A : Tab} {q p : Nat} {u : List Nat} (h : A.run q u = some p) (v : List Nat) : A.acc q (u ++ v) = A.acc p v := by
  unfold Tab.acc
  rw [Tab.run_append, h]; rfl

theorem Tab.acc_cons {A : Tab} {q c : Nat} (v : List Nat) : A.acc q (c :: v) = ((A.step q c).map fun p => A.acc p v).getD false := by
  show (((A.step q c).bind fun p => A.run p v).map A.fin).getD false = _
  cases A.step q c <;> rfl

/-- The table is the minimal one: words that lead to its states, words that are matched from them, words that tell them apart. -/
structure Minimal (A : Tab) (n : Nat) (reach co : Nat → List Nat) : Prop where
  pos : 0 < n
  nofin : A.fin 0 = false
  closed : ∀ q < n, ∀ c p, A.step q c = some p → p < n
  zero : reach 0 = []
  word : ∀ q < n, IsWord (reach q)
  run : ∀ q < n, A.run 0 (reach q) = some q
  coWord : ∀ q < n, IsWord (co q)
  coAcc : ∀ q < n, A.acc q (co q) = true
  differ : ∀ p < n, ∀ q < n, p ≠ q → ∃ v, IsWord v ∧ A.acc p v ≠ A.acc q v

theorem same_of {A : Tab} {n : Nat} {r co : Nat → List Nat} (hA : Minimal A n r co) {k g : Fsm} (h : k.Det)
    (hmin : ∀ p < k.size, ∀ p' < k.size, k.LangFrom p = k.LangFrom p' → p = p') (hD : Doubled k.removeDeadEnds g)
    (hL : ∀ w, IsWord w → (w ∈ k.Lang ↔ A.acc 0 w = true)) : ∃ φ, Same A g φ n := by
  have hrun : ∀ q < n, ∃ p < k.size, Run k.Edge k.initial (r q) p := fun q hq => by
    obtain ⟨p, hp, hr⟩ := h.exists_run (hA.word q hq) h.wf.init_lt
    exact ⟨p, hp, hr⟩
  let φ : Nat → Nat := fun q => if hq : q < n then (hrun q hq).choose else 0
  have hφ : ∀ q < n, φ q < k.size ∧ Run k.Edge k.initial (r q) (φ q) := fun q hq => by
    simp only [φ, dif_pos hq]
    exact ⟨(hrun q hq).choose_spec.1, (hrun q hq).choose_spec.2⟩
  clear_value φ
  have hfrom : ∀ q < n, ∀ v, IsWord v → (v ∈ k.LangFrom (φ q) ↔ A.acc q v = true) := by
    intro q hq v hv
    obtain ⟨h1, h2⟩ := hφ q hq
    have hw : IsWord (r q ++ v) := fun c hc => (List.mem_append.1 hc).elim (hA.word q hq c) (hv c)
    rw [← Tab.acc_append (hA.run q hq) v, ← hL _ hw]
    constructor
    · rintro ⟨p, hp, hr⟩; exact ⟨p, hp, h2.trans hr⟩
    · rintro ⟨p, hp, hr⟩
      obtain ⟨m, hm, hm'⟩ := hr.split
      rw [h.run_unique h2 hm]
      exact ⟨p, hp, hm'⟩
  have hword : ∀ q v, v ∈ k.LangFrom q → q < k.size → IsWord v := fun q v ⟨p, _, hr⟩ hq => h.wf.run_word hr
  have hnil : IsWord ([] : List Nat) := fun c hc => by cases hc
  obtain ⟨k1, k2, k3, k4, -⟩ := removeDeadEnds_fields k
  have hfin : ∀ q < n, (φ q ∈ k.finals ↔ A.fin q = true) := by
    intro q hq
    have := hfrom q hq [] hnil
    rw [show A.acc q [] = A.fin q from rfl] at this
    rw [← this]
    constructor
    · intro hf; exact ⟨_, hf, .refl _⟩
    · rintro ⟨p, hp, hr⟩; rw [h.run_unique (.refl _) hr]; exact hp
  have hlive : ∀ q < n, φ q ∉ k.deadStates := by
    intro q hq hd
    rcases ((mem_deadStates h.wf h.coh _).1 hd).2 with hd | hd
    · exact hd ⟨_, (hφ q hq).2⟩
    · obtain ⟨p, hp, hr⟩ := (hfrom q hq _ (hA.coWord q hq)).2 (hA.coAcc q hq)
      exact hd ⟨_, p, hp, hr⟩
  refine ⟨φ, hA.pos, ?_, hA.nofin, ?_, ?_, ?_, hA.closed, ?_⟩
  · have := (hφ 0 hA.pos).2
    rw [hA.zero] at this
    rw [hD.initial, k2]
    exact (h.run_unique (.refl _) this).symm
  · intro p q hp hq he
    by_contra hne
    obtain ⟨v, hv, hd⟩ := hA.differ p hp q hq hne
    apply hd
    rw [Bool.eq_iff_iff, ← hfrom p hp v hv, ← hfrom q hq v hv, he]
  · intro q hq
    unfold Fsm.isFinal
    rw [Bool.eq_iff_iff, decide_eq_true_iff, hD.finals, k3]
    exact hfin q hq
  · intro q hq c hc hE
    have hq' : φ q < k.removeDeadEnds.size := by rw [k1]; exact (hφ q hq).1
    obtain ⟨p, he⟩ := h.exists_edge (hφ q hq).1 hc
    have hp : p < k.size := (h.wf.edge_lt he).2.2
    have hdest : ∀ x, x ∈ g.destinations (φ q) c ↔ x = p ∧ p ∉ k.deadStates := by
      intro x
      rw [hD.edge _ hq' c hc hE, removeDeadEnds_edge]
      constructor
      · rintro ⟨h1, h2, h3⟩
        have := h.edge_unique h1 he
        subst this
        exact ⟨rfl, h3⟩
      · rintro ⟨rfl, h3⟩
        exact ⟨he, hlive q hq, h3⟩
    have hc257 : c ≠ 257 := hc.2
    have hLp : ∀ v, IsWord v → (v ∈ k.LangFrom p ↔ A.acc q (c :: v) = true) := by
      intro v hv
      rw [← hfrom q hq (c :: v) (fun x hx => (List.mem_cons.1 hx).elim (fun e => e ▸ hc) (hv x))]
      constructor
      · rintro ⟨m, hm, hr⟩; exact ⟨m, hm, .step hc257 he hr⟩
      · rintro ⟨m, hm, hr⟩
        obtain ⟨p0, p', e0, -, e', hr'⟩ := Run.cons_inv hr
        rw [← h.run_unique (.refl _) e0] at e'
        rw [h.edge_unique he e']
        exact ⟨m, hm, hr'⟩
    cases hs : A.step q c with
    | none =>
      have hdead : p ∈ k.deadStates := (mem_deadStates h.wf h.coh _).2 ⟨hp, Or.inr fun ⟨v, m, hm, hr⟩ => by
        have := (hLp v (h.wf.run_word hr)).1 ⟨m, hm, hr⟩
        rw [Tab.acc_cons, hs] at this
        cases this⟩
      have : g.destinations (φ q) c = ∅ := by
        rw [Finset.eq_empty_iff_forall_notMem]
        intro x hx
        exact ((hdest x).1 hx).2 hdead
      rw [this, elems_empty]; rfl
    | some p' =>
      have hp' := hA.closed q hq c p' hs
      have e : p = φ p' := by
        apply hmin p hp _ (hφ p' hp').1
        ext v
        constructor
        · intro hv
          have hvw := hword p v hv hp
          rw [hfrom p' hp' v hvw]
          have := (hLp v hvw).1 hv
          rw [Tab.acc_cons, hs] at this
          exact this
        · intro hv
          have hvw := hword _ v hv (hφ p' hp').1
          rw [hLp v hvw, Tab.acc_cons, hs]
          exact (hfrom p' hp' v hvw).1 hv
      have : g.destinations (φ q) c = {p} := by
        ext x
        rw [hdest, Finset.mem_singleton]
        exact ⟨fun h => h.1, fun h => ⟨h, by rw [e]; exact hlive p' hp'⟩⟩
      rw [this, HalfFinal.elems_singleton, e]; rfl
  · intro q hq p hp
    have hq' : φ q < k.removeDeadEnds.size := by rw [k1]; exact (hφ q hq).1
    have hge := hD.atEnd _ hq' p (mem_elems.1 hp)
    rw [k1] at hge
    refine ⟨?_, ?_⟩
    · unfold Fsm.isFinal
      rw [hD.finals, k3, decide_eq_false_iff_not]
      intro hf
      have := h.wf.fin_lt _ hf
      omega
    · rw [hD.initial, k2]
      have := h.wf.init_lt
      omega

end Greedy
end Pire
