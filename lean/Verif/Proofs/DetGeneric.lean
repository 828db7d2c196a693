import Verif.Model.Determine
import Verif.Proofs.Partition
import Mathlib.Data.List.Nodup
import Mathlib.Data.List.Infix

/-! # The generic determiner -/

namespace Pire
namespace DTask

variable {S : Type} [DecidableEq S]

/-- States the algorithm has to find. -/
inductive Reach (t : DTask S) : S → Prop
  | init : Reach t t.initial
  | step {s e} : Reach t s → t.required s = true → e ∈ t.letters.set → Reach t (t.next s e.rep)

/-- Invariant of the state table. -/
structure SInv (t : DTask S) (max : Nat) (st : DState S) : Prop where
  zero : st.states[0]? = some t.initial
  nodup : st.states.Nodup
  inv : ∀ s i, st.inv s = some i ↔ st.states[i]? = some s
  count : st.left + st.states.length = max + 1
  reach : ∀ s ∈ st.states, t.Reach s

/-- More states than the limit allows. -/
def TooMany (t : DTask S) (max : Nat) : Prop := ∃ l : List S, l.Nodup ∧ (∀ s ∈ l, t.Reach s) ∧ l.length = max + 2

theorem getElem?_of_prefix {l l' : List S} (h : l <+: l') {i : Nat} {s : S} (hs : l[i]? = some s) : l'[i]? = some s := by
  obtain ⟨r, rfl⟩ := h
  rw [List.getElem?_append_left]
  · exact hs
  · exact (List.getElem?_eq_some_iff.1 hs).1

theorem SInv.not_mem {t : DTask S} {max : Nat} {st : DState S} (h : t.SInv max st) {s : S} (hs : st.inv s = none) :
    s ∉ st.states := by
  intro hm
  obtain ⟨i, hi⟩ := List.mem_iff_getElem?.1 hm
  rw [(h.inv s i).2 hi] at hs; cases hs

theorem rowStep_spec {t : DTask S} {max : Nat} {s : S} {st : DState S} {row : Nat → Nat} (h : t.SInv max st)
    (hs : t.Reach s) (hr : t.required s = true) {e : PClass} (he : e ∈ t.letters.set) :
    (∀ st' row', t.rowStep s (st, row) e = some (st', row') → t.SInv max st' ∧ st.states <+: st'.states ∧
        st'.trans = st.trans ∧ st'.states[row' e.idx]? = some (t.next s e.rep) ∧ ∀ i, i ≠ e.idx → row' i = row i) ∧
    (t.rowStep s (st, row) e = none → t.TooMany max) := by
  unfold rowStep
  simp only
  cases hi : st.inv (t.next s e.rep) with
  | some i =>
    simp only [Option.some.injEq, Prod.mk.injEq, reduceCtorEq, false_implies, and_true]
    rintro st' row' ⟨rfl, rfl⟩
    refine ⟨h, List.prefix_rfl, rfl, ?_, ?_⟩
    · rw [Function.update_self]; exact (h.inv _ _).1 hi
    · intro i' hi'; rw [Function.update_of_ne hi']
  | none =>
    have hnm := h.not_mem hi
    have hnd : (st.states ++ [t.next s e.rep]).Nodup := by
      rw [List.nodup_append]
      refine ⟨h.nodup, by simp, ?_⟩
      intro a ha b hb
      rw [List.mem_singleton] at hb
      rintro rfl; subst hb; exact hnm ha
    have hre : ∀ x ∈ st.states ++ [t.next s e.rep], t.Reach x := by
      intro x hx
      rcases List.mem_append.1 hx with hx | hx
      · exact h.reach x hx
      · rw [List.mem_singleton] at hx; subst hx; exact .step hs hr he
    by_cases hl : st.left = 0
    · simp only [if_pos hl, reduceCtorEq, false_implies, implies_true, true_and, forall_const]
      refine ⟨_, hnd, hre, ?_⟩
      have := h.count
      simp only [List.length_append, List.length_singleton]; omega
    · simp only [if_neg hl, Option.some.injEq, Prod.mk.injEq, reduceCtorEq, false_implies, and_true]
      rintro st' row' ⟨rfl, rfl⟩
      refine ⟨⟨?_, hnd, ?_, ?_, hre⟩, List.prefix_append _ _, rfl, ?_, ?_⟩
      · exact getElem?_of_prefix (List.prefix_append _ _) h.zero
      · intro x i
        simp only
        by_cases hx : x = t.next s e.rep
        · subst hx
          rw [Function.update_self]
          constructor
          · intro hh
            cases hh
            simp
          · intro hh
            rw [List.getElem?_append] at hh
            split at hh
            · have := List.mem_of_getElem? hh; exact absurd this hnm
            · rename_i hge
              have : i - st.states.length = 0 := by
                by_contra hne
                rw [List.getElem?_eq_none (by simp; omega)] at hh; cases hh
              congr 1; omega
        · rw [Function.update_of_ne hx, h.inv]
          rw [List.getElem?_append]
          split
          · rfl
          · rename_i hge
            constructor
            · intro hh
              rw [List.getElem?_eq_none (by omega)] at hh; cases hh
            · intro hh
              have := List.mem_of_getElem? hh
              rw [List.mem_singleton] at this
              exact absurd this hx
      · have := h.count
        simp only [List.length_append, List.length_singleton]; omega
      · rw [Function.update_self]; simp
      · intro i' hi'; rw [Function.update_of_ne hi']

theorem row_spec {t : DTask S} {max : Nat} {s : S} (hs : t.Reach s) (hr : t.required s = true) (cs : List PClass)
    (hcs : ∀ e ∈ cs, e ∈ t.letters.set) (hnd : (cs.map PClass.idx).Nodup) {st : DState S} {row : Nat → Nat}
    (h : t.SInv max st) :
    (∀ st' row', cs.foldlM (t.rowStep s) (st, row) = some (st', row') → t.SInv max st' ∧ st.states <+: st'.states ∧
        st'.trans = st.trans ∧ (∀ e ∈ cs, st'.states[row' e.idx]? = some (t.next s e.rep)) ∧
        ∀ i, (∀ e ∈ cs, i ≠ e.idx) → row' i = row i) ∧
    (cs.foldlM (t.rowStep s) (st, row) = none → t.TooMany max) := by
  induction cs generalizing st row with
  | nil =>
    constructor
    · intro st' row' hh
      cases hh
      exact ⟨h, List.prefix_rfl, rfl, by simp, fun _ _ => rfl⟩
    · intro hh; cases hh
  | cons e cs ih =>
    rw [List.map_cons, List.nodup_cons] at hnd
    obtain ⟨h1, h2⟩ := rowStep_spec (row := row) h hs hr (hcs e (by simp))
    rw [List.foldlM_cons]
    cases hstep : t.rowStep s (st, row) e with
    | none => exact ⟨(by intro st' row' hh; cases hh), fun _ => h2 hstep⟩
    | some r =>
      obtain ⟨st1, row1⟩ := r
      obtain ⟨k1, k2, k3, k4, k5⟩ := h1 st1 row1 hstep
      obtain ⟨g1, g2⟩ := ih (fun e he => hcs e (by simp [he])) hnd.2 (st := st1) (row := row1) k1
      refine ⟨?_, g2⟩
      intro st' row' hh
      obtain ⟨m1, m2, m3, m4, m5⟩ := g1 st' row' hh
      refine ⟨m1, k2.trans m2, m3.trans k3, ?_, ?_⟩
      · intro e' he'
        rcases List.mem_cons.1 he' with rfl | he'
        · rw [m5 e'.idx ?_]
          · exact getElem?_of_prefix m2 k4
          · intro e'' he'' heq
            exact hnd.1 (List.mem_map.2 ⟨e'', he'', heq.symm⟩)
        · exact m4 e' he'
      · intro i hi
        rw [m5 i (fun e' he' => hi e' (by simp [he'])), k5 i (hi e (by simp))]

/-- Invariant of the outer loop. -/
structure LInv (t : DTask S) (max idx : Nat) (st : DState S) : Prop extends SInv t max st where
  closed : ∀ i < idx, ∀ s, st.states[i]? = some s → t.required s = true →
    ∃ row, (i, row) ∈ st.trans
  trans : ∀ i row, (i, row) ∈ st.trans → ∃ s, st.states[i]? = some s ∧ t.required s = true ∧
    ∀ e ∈ t.letters.set, st.states[row e.idx]? = some (t.next s e.rep)

theorem loop_spec {t : DTask S} (hl : t.letters.WF) {max : Nat} (fuel : Nat) {idx : Nat} {st : DState S}
    (h : t.LInv max idx st) (hidx : idx ≤ st.states.length) (hfuel : max + 2 ≤ fuel + idx) :
    (∀ st', t.loop fuel idx st = some st' → t.LInv max st'.states.length st') ∧
    (t.loop fuel idx st = none → t.TooMany max) := by
  induction fuel generalizing idx st with
  | zero => have := h.count; omega
  | succ fuel ih =>
    unfold loop
    cases hs : st.states[idx]? with
    | none =>
      simp only [Option.some.injEq, reduceCtorEq, false_implies, and_true]
      rintro st' rfl
      have : idx = st.states.length := by
        rw [List.getElem?_eq_none_iff] at hs; omega
      rw [← this]; exact h
    | some s =>
      have hlt : idx < st.states.length := (List.getElem?_eq_some_iff.1 hs).1
      simp only
      by_cases hr : t.required s = true
      · rw [if_pos hr]
        have hrs := row_spec (h.reach s (List.mem_of_getElem? hs)) hr t.letters.set (fun _ h => h) hl.idx_nodup
          (row := fun _ => 0) h.toSInv
        cases hf : t.letters.set.foldlM (t.rowStep s) (st, fun _ => 0) with
        | none =>
          exact ⟨(by intro st' hh; cases hh), fun _ => hrs.2 hf⟩
        | some r =>
          obtain ⟨st1, row1⟩ := r
          obtain ⟨k1, k2, k3, k4, k5⟩ := hrs.1 st1 row1 hf
          refine ih (idx := idx + 1) ?_ ?_ (by omega)
          · refine ⟨⟨k1.zero, k1.nodup, k1.inv, k1.count, k1.reach⟩, ?_, ?_⟩
            · intro i hi s' hs' hr'
              simp only at hs' ⊢
              by_cases hii : i = idx
              · subst hii; exact ⟨row1, by simp⟩
              · have : st.states[i]? = some s' := by
                  have hi' : i < st.states.length := by omega
                  have hx : st.states[i]? = some st.states[i] := List.getElem?_eq_getElem hi'
                  have := getElem?_of_prefix k2 hx
                  rw [hs'] at this
                  rw [hx, ← this]
                obtain ⟨row, hrow⟩ := h.closed i (by omega) s' this hr'
                exact ⟨row, by rw [k3]; simp [hrow]⟩
            · intro i row hm
              simp only [k3, List.mem_append, List.mem_singleton, Prod.mk.injEq] at hm
              rcases hm with hm | ⟨rfl, rfl⟩
              · obtain ⟨s', h1, h2, h3⟩ := h.trans i row hm
                exact ⟨s', getElem?_of_prefix k2 h1, h2, fun e he => getElem?_of_prefix k2 (h3 e he)⟩
              · exact ⟨s, getElem?_of_prefix k2 hs, hr, k4⟩
          · have := k2.length_le
            simp only; omega
      · rw [if_neg hr]
        refine ih (idx := idx + 1) ⟨h.toSInv, ?_, h.trans⟩ (by omega) (by omega)
        intro i hi s' hs' hr'
        by_cases hii : i = idx
        · subst hii; rw [hs] at hs'; cases hs'; exact absurd hr' hr
        · exact h.closed i (by omega) s' hs' hr'

theorem invLetters_eq {t : DTask S} (hl : t.letters.WF) {e : PClass} (he : e ∈ t.letters.set) :
    t.invLetters e.idx = e.rep := by
  have gen : ∀ (cs : List PClass) (f : Nat → Nat), (cs.map PClass.idx).Nodup →
      (∀ e ∈ cs, (cs.foldl (fun f e => Function.update f e.idx e.rep) f) e.idx = e.rep) ∧
      ∀ i, (∀ e ∈ cs, i ≠ e.idx) → (cs.foldl (fun f e => Function.update f e.idx e.rep) f) i = f i := by
    intro cs
    induction cs with
    | nil => intro f _; simp
    | cons a cs ih =>
      intro f hnd
      rw [List.map_cons, List.nodup_cons] at hnd
      obtain ⟨h1, h2⟩ := ih (Function.update f a.idx a.rep) hnd.2
      constructor
      · intro e he
        rw [List.foldl_cons]
        rcases List.mem_cons.1 he with rfl | he
        · rw [h2]
          · simp
          · intro e' he' heq
            exact hnd.1 (List.mem_map.2 ⟨e', he', heq.symm⟩)
        · exact h1 e he
      · intro i hi
        rw [List.foldl_cons, h2 i (fun e he => hi e (by simp [he])), Function.update_of_ne (hi a (by simp))]
  exact (gen t.letters.set _ hl.idx_nodup).1 e he

/-- Every class index below the number of classes is taken. -/
theorem exists_idx {p : Partition} (hl : p.WF) {i : Nat} (hi : i < p.size) : ∃ e ∈ p.set, e.idx = i := by
  have hlen : (p.set.map PClass.idx).length = p.size := by simp [Partition.size]
  have hsub : (p.set.map PClass.idx) ⊆ List.range p.size := by
    intro x hx
    obtain ⟨e, he, rfl⟩ := List.mem_map.1 hx
    exact List.mem_range.2 (hl.idx_lt e he)
  have hperm := (hl.idx_nodup.subperm hsub).perm_of_length_le (by simp [hlen])
  have : i ∈ p.set.map PClass.idx := hperm.mem_iff.2 (List.mem_range.2 hi)
  obtain ⟨e, he, rfl⟩ := List.mem_map.1 this
  exact ⟨e, he, rfl⟩

/-- The result of the generic determiner. -/
structure RunSpec (t : DTask S) (max : Nat) (states : List S) (conns : List (Nat × Nat × Nat)) : Prop where
  zero : states[0]? = some t.initial
  nodup : states.Nodup
  mem : ∀ s, s ∈ states ↔ t.Reach s
  len : states.length ≤ max + 1
  conns : ∀ i j c, (i, j, c) ∈ conns ↔ ∃ s, states[i]? = some s ∧ t.required s = true ∧
    (∃ e ∈ t.letters.set, e.rep = c) ∧ states[j]? = some (t.next s c)

theorem run_spec {t : DTask S} (hl : t.letters.WF) (max : Nat) :
    (∀ states conns, t.run max = some (states, conns) → t.RunSpec max states conns) ∧
    (t.run max = none ↔ t.TooMany max) := by
  have h0 : t.LInv max 0 { states := [t.initial], inv := Function.update (fun _ => none) t.initial (some 0), left := max, trans := [] } := by
    refine ⟨⟨rfl, by simp, ?_, by simp, ?_⟩, by simp, by simp⟩
    · intro s i
      simp only
      by_cases hs : s = t.initial
      · subst hs
        rw [Function.update_self]
        cases i with
        | zero => simp
        | succ i => simp
      · rw [Function.update_of_ne hs]
        cases i with
        | zero => simp [Ne.symm hs]
        | succ i => simp
    · intro s hs
      rw [List.mem_singleton] at hs; subst hs; exact .init
  obtain ⟨h1, h2⟩ := loop_spec hl (max + 2) h0 (by simp) (by omega)
  have hsome : ∀ states conns, t.run max = some (states, conns) → t.RunSpec max states conns := by
    intro states conns hrun
    unfold run at hrun
    simp only [Option.map_eq_some_iff, Prod.mk.injEq] at hrun
    obtain ⟨st, hst, rfl, rfl⟩ := hrun
    have hi := h1 st hst
    have hconns : ∀ i j c, (i, j, c) ∈ (st.trans.flatMap fun ir =>
        (List.range t.letters.size).map fun l => (ir.1, ir.2 l, t.invLetters l)) ↔
        ∃ s, st.states[i]? = some s ∧ t.required s = true ∧
          (∃ e ∈ t.letters.set, e.rep = c) ∧ st.states[j]? = some (t.next s c) := by
      intro i j c
      simp only [List.mem_flatMap, List.mem_map, List.mem_range, Prod.mk.injEq, Prod.exists]
      constructor
      · rintro ⟨i', row, hm, l, hlt, rfl, rfl, rfl⟩
        obtain ⟨s, hs1, hs2, hs3⟩ := hi.trans _ _ hm
        obtain ⟨e, he, rfl⟩ := exists_idx hl hlt
        rw [invLetters_eq hl he]
        exact ⟨s, hs1, hs2, ⟨e, he, rfl⟩, hs3 e he⟩
      · rintro ⟨s, hs1, hs2, ⟨e, he, rfl⟩, hj⟩
        have hlt := (List.getElem?_eq_some_iff.1 hs1).1
        obtain ⟨row, hrow⟩ := hi.closed i hlt s hs1 hs2
        obtain ⟨s', hs1', _, hs3⟩ := hi.trans i row hrow
        rw [hs1] at hs1'; cases hs1'
        have h3 := hs3 e he
        have : row e.idx = j := by
          have ha := (hi.inv _ _).2 h3
          have hb := (hi.inv _ _).2 hj
          rw [ha] at hb; cases hb; rfl
        exact ⟨i, row, hrow, e.idx, hl.idx_lt e he, rfl, this, invLetters_eq hl he⟩
    refine ⟨hi.zero, hi.nodup, ?_, by have := hi.count; omega, hconns⟩
    intro s
    constructor
    · exact hi.reach s
    · intro hr
      induction hr with
      | init => exact List.mem_of_getElem? hi.zero
      | step _ hreq he ih =>
        obtain ⟨i, his⟩ := List.mem_iff_getElem?.1 ih
        obtain ⟨row, hrow⟩ := hi.closed i (List.getElem?_eq_some_iff.1 his).1 _ his hreq
        obtain ⟨s', hs1', _, hs3⟩ := hi.trans i row hrow
        rw [his] at hs1'; cases hs1'
        exact List.mem_of_getElem? (hs3 _ he)
  refine ⟨hsome, ?_⟩
  constructor
  · intro hrun
    unfold run at hrun
    simp only [Option.map_eq_none_iff] at hrun
    exact h2 hrun
  · rintro ⟨l, hnd, hre, hlen⟩
    cases hrun : t.run max with
    | none => rfl
    | some r =>
      obtain ⟨states, conns⟩ := r
      have hs := hsome _ _ hrun
      have hsub : l ⊆ states := fun s hs' => (hs.mem s).2 (hre s hs')
      have := (hnd.subperm hsub).length_le
      have := hs.len
      omega

end DTask
end Pire
