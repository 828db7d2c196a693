import Verif.Proofs.GreedySmall

/-!
# Greedy counters of concrete languages

The counting states of a language that is given by a table of a deterministic automaton, computed on the table.
-/

namespace Pire
open Fsm Spec HalfFinal HalfFinal.Greedy
namespace Greedy

/-- A table: no transition leads to a state from which nothing can be matched. The state 0 is the initial one. -/
structure Tab where
  fin : Nat → Bool
  step : Nat → Nat → Option Nat

namespace Tab

/-- Reading a word. -/
def run (A : Tab) : Nat → List Nat → Option Nat
  | q, [] => some q
  | q, c :: w => (A.step q c).bind fun p => run A p w

/-- Whether a word is matched from `q`. -/
def acc (A : Tab) (q : Nat) (w : List Nat) : Bool := ((A.run q w).map A.fin).getD false

def back (A : Tab) (s : DSt) : Bool := (s.states.getLast?.map fun h => A.fin h.state).getD false

def add (A : Tab) (s : DSt) (q count : Nat) (reached force : Bool) : DSt :=
  let fin := A.fin q && !reached
  let count := if fin then count + 1 else count
  let last := if fin then count else s.last
  if s.states.any fun h => h.state == q then s
  else if !A.back s || force then { s with states := s.states ++ [⟨q, count, reached || fin⟩], last := last }
  else s

def finish (A : Tab) (s : DSt) (D lastCount : Nat) : DSt :=
  settle D (A.add s 0 (if A.back s then ((s.states.getLast?.map (·.count)).getD 0) else lastCount) false true)

def advance (A : Tab) (s : DSt) (c : Nat) : DSt :=
  s.states.foldl (fun n h => match A.step h.state c with | none => n | some q => A.add n q h.count h.reached false) ⟨[], 0, s.last⟩

def next (A : Tab) (D : Nat) (s : DSt) (c : Nat) : DSt :=
  if c = EndMark then ⟨[⟨0, 0, false⟩], min s.last D, 0⟩
  else A.finish (A.advance s c) D ((s.states.getLast?.map (·.count)).getD 0)

def start : DSt := ⟨[⟨0, 0, false⟩], 0, 0⟩

def after (A : Tab) (D : Nat) (w : List Nat) : DSt := w.foldl (A.next D) start

end Tab

/-- The automaton `f` does the same as the table; `φ` gives its states. -/
structure Same (A : Tab) (f : Fsm) (φ : Nat → Nat) (n : Nat) : Prop where
  pos : 0 < n
  init : φ 0 = f.initial
  nofin : A.fin 0 = false
  inj : ∀ p q, p < n → q < n → φ p = φ q → p = q
  fin : ∀ q < n, f.isFinal (φ q) = A.fin q
  step : ∀ q < n, ∀ c, IsLetter c → c ≠ EndMark → elems (f.destinations (φ q) c) = ((A.step q c).map φ).toList
  closed : ∀ q < n, ∀ c p, A.step q c = some p → p < n
  atEnd : ∀ q < n, ∀ p ∈ elems (f.destinations (φ q) EndMark), f.isFinal p = false ∧ p ≠ f.initial

/-- The same counting state. -/
structure Rel (φ : Nat → Nat) (n : Nat) (S T : DSt) : Prop where
  states : S.states = T.states.map fun h => { h with state := φ h.state }
  lt : ∀ h ∈ T.states, h.state < n
  toAdd : S.toAdd = T.toAdd
  last : S.last = T.last

variable {A : Tab} {f : Fsm} {φ : Nat → Nat} {n : Nat}

theorem Rel.back (h : Same A f φ n) {S T : DSt} (hr : Rel φ n S T) : backFinal f S = A.back T := by
  unfold backFinal Tab.back
  rw [hr.states, List.getLast?_map]
  cases hl : T.states.getLast? with
  | none => rfl
  | some x => exact h.fin _ (hr.lt x (List.mem_of_getLast? hl))

theorem Rel.count {S T : DSt} (hr : Rel φ n S T) : (S.states.getLast?.map (·.count)).getD 0 = (T.states.getLast?.map (·.count)).getD 0 := by
  rw [hr.states, List.getLast?_map, Option.map_map]
  rfl

theorem Rel.add (h : Same A f φ n) {S T : DSt} (hr : Rel φ n S T) {q : Nat} (hq : q < n) (k : Nat) (r fo : Bool) :
    Rel φ n (addState f S (φ q) k r fo) (A.add T q k r fo) := by
  unfold addState Tab.add
  rw [h.fin q hq, hr.back h]
  have hany : (S.states.any fun h => h.state == φ q) = (T.states.any fun h => h.state == q) := by
    rw [hr.states, List.any_map, Bool.eq_iff_iff, List.any_eq_true, List.any_eq_true]
    constructor
    · rintro ⟨x, hx, he⟩
      refine ⟨x, hx, ?_⟩
      simp only [Function.comp_apply, beq_iff_eq] at he ⊢
      exact h.inj _ _ (hr.lt x hx) hq he
    · rintro ⟨x, hx, he⟩
      refine ⟨x, hx, ?_⟩
      simp only [Function.comp_apply, beq_iff_eq] at he ⊢
      rw [he]
  rw [hany]
  simp only
  split
  · exact hr
  · split
    · refine ⟨?_, ?_, hr.toAdd, ?_⟩
      · simp [hr.states]
      · intro x hx
        rcases List.mem_append.1 hx with hx | hx
        · exact hr.lt x hx
        · rw [List.mem_singleton.1 hx]; exact hq
      · simp only; rw [hr.last]
    · exact hr

theorem Rel.settle {S T : DSt} (hr : Rel φ n S T) (D : Nat) : Rel φ n (settle D S) (settle D T) := by
  have hm : ∀ (l : List Holder) (a : Nat), ((l.map fun h => { h with state := φ h.state }).map fun h => { h with count := min h.count D }).foldl (fun m h => min h.count m) a =
      (l.map fun h => { h with count := min h.count D }).foldl (fun m h => min h.count m) a := by
    intro l
    induction l with
    | nil => intro a; rfl
    | cons x l ih => intro a; simp only [List.map_cons, List.foldl_cons]; exact ih _
  have hh : (S.states.headD ⟨0, 0, false⟩).count = (T.states.headD ⟨0, 0, false⟩).count := by
    rw [hr.states]
    cases T.states <;> rfl
  have e : (S.states.map fun h => { h with count := min h.count D }).foldl (fun m h => min h.count m) (S.states.headD ⟨0, 0, false⟩).count =
      (T.states.map fun h => { h with count := min h.count D }).foldl (fun m h => min h.count m) (T.states.headD ⟨0, 0, false⟩).count := by
    rw [hh, hr.states]; exact hm _ _
  unfold HalfFinal.Greedy.settle
  simp only
  rw [e]
  refine ⟨?_, ?_, rfl, by simp only; rw [hr.last]⟩
  · simp only [hr.states, List.map_map]; rfl
  · intro x hx
    simp only [List.map_map, List.mem_map] at hx
    obtain ⟨y, hy, rfl⟩ := hx
    exact hr.lt y hy

theorem Rel.finish (h : Same A f φ n) {S T : DSt} (hr : Rel φ n S T) (D k : Nat) : Rel φ n (finishBuild f S D k) (A.finish T D k) := by
  unfold finishBuild Tab.finish
  simp only
  rw [hr.back h, hr.count, ← h.init]
  exact (hr.add h h.pos _ _ _).settle D

theorem Rel.advance (h : Same A f φ n) {S T : DSt} (hr : Rel φ n S T) {c : Nat} (hc : IsLetter c) (hE : c ≠ EndMark) :
    Rel φ n (HalfFinal.Greedy.advance f S c) (A.advance T c) := by
  unfold HalfFinal.Greedy.advance Tab.advance
  rw [hr.states, hr.last]
  have gen : ∀ (l : List Holder) (S' T' : DSt), (∀ x ∈ l, x.state < n) → Rel φ n S' T' →
      Rel φ n ((l.map fun h => { h with state := φ h.state }).foldl (fun n h => (elems (f.destinations h.state c)).foldl (fun n q => addState f n q h.count h.reached false) n) S')
        (l.foldl (fun n h => match A.step h.state c with | none => n | some q => A.add n q h.count h.reached false) T') := by
    intro l
    induction l with
    | nil => intro S' T' _ h'; exact h'
    | cons x l ih =>
      intro S' T' hl h'
      rw [List.map_cons, List.foldl_cons, List.foldl_cons]
      refine ih _ _ (fun y hy => hl y (List.mem_cons_of_mem _ hy)) ?_
      have hx := hl x List.mem_cons_self
      simp only
      rw [h.step _ hx c hc hE]
      cases hs : A.step x.state c with
      | none => exact h'
      | some p => exact h'.add h (h.closed _ hx _ _ hs) _ _ _
  exact gen _ _ _ hr.lt ⟨rfl, by simp, rfl, rfl⟩

theorem next_end (h : Same A f φ n) {S T : DSt} (hr : Rel φ n S T) {D : Nat} (hD : D < 2 ^ 64) :
    HalfFinal.Greedy.next f D S EndMark = fresh f (min S.last D) := by
  have hnf : f.isFinal f.initial = false := by rw [← h.init, h.fin 0 h.pos]; exact h.nofin
  have hadv : (HalfFinal.Greedy.advance f S EndMark).last = S.last ∧ ∀ x ∈ (HalfFinal.Greedy.advance f S EndMark).states, f.isFinal x.state = false ∧ x.state ≠ f.initial := by
    unfold HalfFinal.Greedy.advance
    have key : ∀ (l : List Nat) (k : Nat) (r : Bool) (n : DSt), (∀ p ∈ l, f.isFinal p = false ∧ p ≠ f.initial) →
        (n.last = S.last ∧ ∀ h ∈ n.states, f.isFinal h.state = false ∧ h.state ≠ f.initial) →
        (l.foldl (fun n q => addState f n q k r false) n).last = S.last ∧
          ∀ h ∈ (l.foldl (fun n q => addState f n q k r false) n).states, f.isFinal h.state = false ∧ h.state ≠ f.initial := by
      intro l k r
      induction l with
      | nil => intro n _ h; exact h
      | cons q l ih =>
        intro n hl hn
        rw [List.foldl_cons]
        refine ih _ (fun p hp => hl p (List.mem_cons_of_mem _ hp)) ?_
        obtain ⟨hq1, hq2⟩ := hl q List.mem_cons_self
        unfold addState
        simp only [hq1, Bool.false_and, Bool.false_eq_true, if_false, Bool.or_false]
        split
        · exact hn
        · split
          · refine ⟨hn.1, fun x hx => ?_⟩
            rcases List.mem_append.1 hx with hx | hx
            · exact hn.2 x hx
            · rw [List.mem_singleton.1 hx]; exact ⟨hq1, hq2⟩
          · exact hn
    have gen : ∀ (l : List Holder) (n' : DSt), (∀ x ∈ l, ∃ q < n, x.state = φ q) →
        (n'.last = S.last ∧ ∀ h ∈ n'.states, f.isFinal h.state = false ∧ h.state ≠ f.initial) →
        (l.foldl (fun n h => (elems (f.destinations h.state EndMark)).foldl (fun n q => addState f n q h.count h.reached false) n) n').last = S.last ∧
          ∀ h ∈ (l.foldl (fun n h => (elems (f.destinations h.state EndMark)).foldl (fun n q => addState f n q h.count h.reached false) n) n').states,
            f.isFinal h.state = false ∧ h.state ≠ f.initial := by
      intro l
      induction l with
      | nil => intro n' _ h; exact h
      | cons x l ih =>
        intro n' hl hn
        rw [List.foldl_cons]
        refine ih _ (fun y hy => hl y (List.mem_cons_of_mem _ hy)) (key _ _ _ _ ?_ hn)
        obtain ⟨q, hq, e⟩ := hl x List.mem_cons_self
        rw [e]
        exact h.atEnd q hq
    refine gen _ _ (fun x hx => ?_) ⟨rfl, by simp⟩
    rw [hr.states] at hx
    obtain ⟨y, hy, rfl⟩ := List.mem_map.1 hx
    exact ⟨_, hr.lt y hy, rfl⟩
  obtain ⟨h1, h2⟩ := hadv
  unfold HalfFinal.Greedy.next
  rw [if_pos rfl]
  obtain ⟨k, hk⟩ : ∃ k, k = (S.states.getLast?.map (·.count)).getD 0 := ⟨_, rfl⟩
  rw [← hk]
  generalize HalfFinal.Greedy.advance f S EndMark = a at h1 h2
  have hbf : backFinal f a = false := by
    unfold backFinal
    cases hg : a.states.getLast? with
    | none => rfl
    | some b => exact (h2 b (List.mem_of_getLast? hg)).1
  have hany : (a.states.any fun h => h.state == f.initial) = false := by
    rw [Bool.eq_false_iff]
    intro hx
    obtain ⟨b, hb, hb'⟩ := List.any_eq_true.1 hx
    exact (h2 b hb).2 (by simpa using hb')
  have hadd : addState f a f.initial k false true = { a with states := a.states ++ [⟨f.initial, k, false⟩] } := by
    unfold addState
    simp only [hnf, Bool.false_and, hany, Bool.false_eq_true, if_false, Bool.or_true, if_true, Bool.or_self]
  have hfresh : ∀ t, addState f ⟨[], t, 0⟩ f.initial 0 false true = fresh f t := fun t => by
    unfold addState; simp [hnf, fresh]
  rw [hfresh]
  congr 1
  unfold finishBuild
  rw [hbf]
  simp only [Bool.false_eq_true, if_false]
  rw [hadd]
  unfold HalfFinal.Greedy.settle
  simp only
  obtain ⟨hl, hhl⟩ : ∃ hl : List Holder, hl = (a.states ++ [(⟨f.initial, k, false⟩ : Holder)]).map fun (h : Holder) => { h with count := min h.count D } := ⟨_, rfl⟩
  obtain ⟨z, hz⟩ : ∃ z, z = ((a.states ++ [(⟨f.initial, k, false⟩ : Holder)]).headD ⟨0, 0, false⟩).count := ⟨_, rfl⟩
  rw [← hhl, ← hz]
  obtain ⟨m, hm⟩ : ∃ m, m = hl.foldl (fun m h => min h.count m) z := ⟨_, rfl⟩
  have hmle : m ≤ D := by
    have := (foldl_min_spec hl z).1 ⟨f.initial, min k D, false⟩
      (by rw [hhl]; exact List.mem_map.2 ⟨⟨f.initial, k, false⟩, by simp, rfl⟩)
    rw [← hm] at this
    exact this.trans (Nat.min_le_right _ _)
  rw [← hm, h1]
  have hle := Nat.min_le_right S.last D
  generalize min S.last D = x at *
  clear hm hadd hany hbf h1 h2 hk hz hhl
  omega

theorem Rel.next (h : Same A f φ n) {S T : DSt} (hr : Rel φ n S T) {D : Nat} (hD : D < 2 ^ 64) {c : Nat} (hc : IsLetter c) :
    Rel φ n (HalfFinal.Greedy.next f D S c) (A.next D T c) := by
  by_cases hE : c = EndMark
  · subst hE
    rw [next_end h hr hD]
    unfold Tab.next
    rw [if_pos rfl, hr.last]
    exact ⟨by unfold fresh; simp [h.init], by simpa using h.pos, rfl, rfl⟩
  · unfold HalfFinal.Greedy.next Tab.next
    simp only [if_neg hE]
    rw [hr.count]
    exact (hr.advance h hc hE).finish h D _

theorem rel_start (h : Same A f φ n) : Rel φ n (HalfFinal.Greedy.start f) Tab.start := by
  have hnf : f.isFinal f.initial = false := by rw [← h.init, h.fin 0 h.pos]; exact h.nofin
  have e : HalfFinal.Greedy.start f = fresh f 0 := by
    unfold HalfFinal.Greedy.start finishBuild
    have : backFinal f ⟨[], 0, 0⟩ = false := rfl
    rw [this]
    simp only [Bool.false_eq_true, if_false]
    unfold addState
    simp [hnf, fresh, HalfFinal.Greedy.settle]
  rw [e]
  exact ⟨by unfold fresh Tab.start; simp [h.init], by unfold Tab.start; simpa using h.pos, rfl, rfl⟩

theorem rel_after (h : Same A f φ n) {D : Nat} (hD : D < 2 ^ 64) {u : List Nat} (hu : IsWord u) : Rel φ n (after f D u) (A.after D u) := by
  induction u using List.reverseRecOn with
  | nil => exact rel_start h
  | append_singleton u c ih =>
    rw [after_snoc]
    have : A.after D (u ++ [c]) = A.next D (A.after D u) c := by unfold Tab.after; rw [List.foldl_append]; rfl
    rw [this]
    exact (ih fun x hx => hu x (List.mem_append_left _ hx)).next h hD (hu c (by simp))

theorem Rel.determines {S S' T : DSt} (h : Rel φ n S T) (h' : Rel φ n S' T) : S = S' := by
  cases S; cases S'
  have e1 := h.states.trans h'.states.symm
  have e2 := h.toAdd.trans h'.toAdd.symm
  have e3 := h.last.trans h'.last.symm
  simp only at e1 e2 e3
  rw [e1, e2, e3]

/-- If the counting states of the table are known, determining succeeds. -/
theorem settles_table {g : Fsm} (hd : Doubled g f) (h : Same A f φ n) {D : Nat} (hD : D < 2 ^ 64) {R : List DSt} (h0 : Tab.start ∈ R)
    (hR : ∀ s ∈ R, ∀ c, IsLetter c → A.next D s c ∈ R) (hlen : R.length ≤ 200001) : (task f D).run 200000 ≠ none := by
  classical
  rw [ne_eq, (DTask.run_spec (t := task f D) hd.let_wf 200000).2]
  rintro ⟨l, hnd, hre, hll⟩
  have hmem : ∀ u, IsWord u → A.after D u ∈ R := by
    intro u
    induction u using List.reverseRecOn with
    | nil => intro _; exact h0
    | append_singleton u c ih =>
      intro hu
      have : A.after D (u ++ [c]) = A.next D (A.after D u) c := by unfold Tab.after; rw [List.foldl_append]; rfl
      rw [this]
      exact hR _ (ih fun x hx => hu x (List.mem_append_left _ hx)) c (hu c (by simp))
  have hsub : l ⊆ R.map fun T => (⟨T.states.map fun h => { h with state := φ h.state }, T.toAdd, T.last⟩ : DSt) := by
    intro s hs
    obtain ⟨u, hu, rfl⟩ := reach_word hd (hre s hs)
    refine List.mem_map.2 ⟨A.after D u, hmem u hu, ?_⟩
    have hr := rel_after h hD hu
    cases hS : after f D u
    rw [hS] at hr
    have e1 := hr.states; have e2 := hr.toAdd; have e3 := hr.last
    simp only at e1 e2 e3
    rw [e1, e2, e3]
  have := (hnd.subperm hsub).length_le
  rw [List.length_map] at this
  omega

end Greedy
end Pire
