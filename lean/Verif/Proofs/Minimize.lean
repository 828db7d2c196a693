import Verif.Proofs.HopcroftGen
import Verif.Proofs.Determine

/-! # `Fsm::Minimize` on a determined automaton -/

namespace Pire
namespace Fsm

open Spec

/-- The target of state `q` on the letter class with index `l`. -/
def cdelta (f : Fsm) (q l : Nat) : Nat :=
  match f.letters.set.find? fun e => e.idx == l with
  | some e => f.firstDst q e.rep
  | none => 0

theorem cdelta_eq {f : Fsm} (h : f.WF) {e : PClass} (he : e ∈ f.letters.set) (q : Nat) :
    f.cdelta q e.idx = f.firstDst q e.rep := by
  unfold cdelta
  cases hf : f.letters.set.find? fun x => x.idx == e.idx with
  | none =>
    have := List.find?_eq_none.1 hf e he
    simp at this
  | some e' =>
    have h1 := List.find?_some hf
    have h2 := List.mem_of_find?_eq_some hf
    simp only [beq_iff_eq] at h1
    rw [List.inj_on_of_nodup_map h.let_wf.idx_nodup h2 he h1]

theorem exists_class {f : Fsm} (h : f.WF) {l : Nat} (hl : l < f.letters.size) : ∃ e ∈ f.letters.set, e.idx = l := by
  have h1 := h.let_wf
  have hsub : (f.letters.set.map PClass.idx).toFinset ⊆ Finset.range f.letters.size := by
    intro x hx
    rw [List.mem_toFinset, List.mem_map] at hx
    obtain ⟨e, he, rfl⟩ := hx
    exact Finset.mem_range.2 (h1.idx_lt e he)
  have hcard : (f.letters.set.map PClass.idx).toFinset.card = f.letters.size := by
    rw [List.toFinset_card_of_nodup h1.idx_nodup, List.length_map]; rfl
  have heq := Finset.eq_of_subset_of_card_le hsub (by rw [hcard, Finset.card_range])
  have : l ∈ (f.letters.set.map PClass.idx).toFinset := by rw [heq]; exact Finset.mem_range.2 hl
  rw [List.mem_toFinset, List.mem_map] at this
  exact this

theorem elems_singleton (p : Nat) : elems {p} = [p] := by
  have h1 : ∀ x, x ∈ elems {p} ↔ x = p := by intro x; rw [mem_elems, Finset.mem_singleton]
  have h2 := elems_nodup {p}
  generalize elems {p} = l at h1 h2
  match l, h1, h2 with
  | [], h1, _ => exact absurd ((h1 p).2 rfl) (by simp)
  | [x], h1, _ => rw [(h1 x).1 (by simp)]
  | x :: y :: l, h1, h2 =>
    have hx := (h1 x).1 (by simp)
    have hy := (h1 y).1 (by simp)
    simp [hx, hy] at h2

theorem firstDst_eq {f : Fsm} {q c p : Nat} (h : f.tr q c = some {p}) : f.firstDst q c = p := by
  rw [firstDst, dst, h, Option.getD_some, elems_singleton]; rfl

theorem Det.tr_rep {f : Fsm} (h : f.Det) {q : Nat} (hq : q < f.size) {e : PClass} (he : e ∈ f.letters.set) :
    f.tr q e.rep = some {f.firstDst q e.rep} ∧ f.firstDst q e.rep < f.size := by
  obtain ⟨p, hp⟩ := h.total q hq e he
  have : f.firstDst q e.rep = p := firstDst_eq hp
  rw [this]
  exact ⟨hp, (h.wf.tr_lt _ _ _ hp).2.2 p (by simp)⟩

theorem Det.edge_class {f : Fsm} (h : f.Det) {q : Nat} (hq : q < f.size) {e : PClass} (he : e ∈ f.letters.set)
    {c : Nat} (hc : c ∈ e.members) (p : Nat) : f.Edge q c p ↔ p = f.firstDst q e.rep := by
  rw [edge_of_class h.wf he hc, dst, (h.tr_rep hq he).1]; simp

theorem Det.mem_class {f : Fsm} (h : f.Det) {c : Nat} (hc : IsLetter c) : ∃ e ∈ f.letters.set, c ∈ e.members := by
  obtain ⟨r, hr⟩ := Option.isSome_iff_exists.1 ((h.all c).2 hc)
  obtain ⟨e, he, _, hm⟩ := (h.wf.let_wf.inv_iff _ _).1 hr
  exact ⟨e, he, hm⟩

theorem Det.member_letter {f : Fsm} (h : f.Det) {e : PClass} (he : e ∈ f.letters.set) {c : Nat} (hc : c ∈ e.members) :
    IsLetter c := h.wf.let_lt _ _ (h.wf.let_wf.inv_of_mem he hc)

theorem Det.mem_rowKeys {f : Fsm} (h : f.Det) {q : Nat} (hq : q < f.size) (c : Nat) :
    c ∈ rowKeys (f.tr q) ↔ ∃ e ∈ f.letters.set, e.rep = c := by
  rw [Fsm.mem_rowKeys]
  constructor
  · rintro ⟨_, hs⟩
    have hk := h.keys q c (by intro hn; rw [hn] at hs; cases hs)
    obtain ⟨e, he, hr, _⟩ := (h.wf.let_wf.inv_iff _ _).1 hk
    exact ⟨e, he, hr⟩
  · rintro ⟨e, he, rfl⟩
    rw [(h.tr_rep hq he).1]
    exact ⟨(h.member_letter he (h.wf.let_wf.rep_mem e he)).1, rfl⟩

theorem Det.mem_minPrev {f : Fsm} (h : f.Det) {p l : Nat} (hl : l < f.letters.size) (q : Nat) :
    q ∈ f.minPrev p l ↔ q < f.size ∧ f.cdelta q l = p := by
  obtain ⟨e, he, rfl⟩ := exists_class h.wf hl
  rw [cdelta_eq h.wf he]
  simp only [minPrev, List.mem_filter, List.mem_range, List.any_eq_true, Bool.and_eq_true, beq_iff_eq]
  apply and_congr_right
  intro hq
  constructor
  · rintro ⟨c, hc, hi, hp⟩
    obtain ⟨e', he', rfl⟩ := (h.mem_rowKeys hq c).1 hc
    rw [h.wf.let_wf.index_eq he' (h.wf.let_wf.rep_mem e' he'), Option.some.injEq] at hi
    rw [← List.inj_on_of_nodup_map h.wf.let_wf.idx_nodup he' he hi]; exact hp
  · intro hp
    exact ⟨e.rep, (h.mem_rowKeys hq _).2 ⟨e, he, rfl⟩, h.wf.let_wf.index_eq he (h.wf.let_wf.rep_mem e he), hp⟩

theorem Det.minTask_wf {f : Fsm} (h : f.Det) : f.minTask.Wf f.cdelta := by
  refine ⟨?_, ?_, ?_⟩
  · intro q hq l hl
    obtain ⟨e, he, rfl⟩ := exists_class h.wf hl
    rw [cdelta_eq h.wf he]
    exact (h.tr_rep hq he).2
  · intro p _ l hl q
    exact h.mem_minPrev hl q
  · intro p l
    exact List.nodup_range.filter _

theorem Det.nil_mem {f : Fsm} (h : f.Det) (q : Nat) : [] ∈ f.LangFrom q ↔ q ∈ f.finals :=
  mem_langFrom_nil_noeps (fun _ _ => h.no_eps) q

theorem Det.cons_mem {f : Fsm} (h : f.Det) {q : Nat} (hq : q < f.size) {e : PClass} (he : e ∈ f.letters.set)
    {c : Nat} (hc : c ∈ e.members) (w : List Nat) : c :: w ∈ f.LangFrom q ↔ w ∈ f.LangFrom (f.firstDst q e.rep) := by
  rw [mem_langFrom_cons_noeps (fun _ _ => h.no_eps)]
  constructor
  · rintro ⟨_, q', e', hw⟩
    rw [(h.edge_class hq he hc q').1 e'] at hw; exact hw
  · intro hw
    exact ⟨(h.member_letter he hc).2, _, (h.edge_class hq he hc _).2 rfl, hw⟩

/-- The result of the partition refinement on a determined automaton. -/
structure MinSpec (f : Fsm) (cls : Nat → Nat) (n : Nat) : Prop where
  lt : ∀ q < f.size, cls q < n
  onto : ∀ k < n, ∃ q < f.size, cls q = k
  le : n ≤ f.size
  fin : ∀ q < f.size, ∀ q' < f.size, cls q = cls q' → (q ∈ f.finals ↔ q' ∈ f.finals)
  step : ∀ q < f.size, ∀ q' < f.size, cls q = cls q' → ∀ e ∈ f.letters.set,
    cls (f.firstDst q e.rep) = cls (f.firstDst q' e.rep)
  coarse : ∀ q < f.size, ∀ q' < f.size, f.LangFrom q = f.LangFrom q' → cls q = cls q'

theorem minCls_eq_iff {f : Fsm} (q q' : Nat) : f.minCls q = f.minCls q' ↔ (q ∈ f.finals ↔ q' ∈ f.finals) := by
  have hd : ∀ q, f.isFinal q = decide (q ∈ f.finals) := fun _ => rfl
  unfold minCls
  rw [hd, hd, hd]
  by_cases a : q ∈ f.finals <;> by_cases b : q' ∈ f.finals <;> by_cases c : 0 ∈ f.finals <;> simp [a, b, c]

theorem Det.minSpec {f : Fsm} (h : f.Det) :
    MinSpec f (f.minTask.run f.minCls f.minClasses).cls (f.minTask.run f.minCls f.minClasses).classes := by
  have hpos : f.size ≠ 0 := by have := h.wf.init_lt; omega
  have hlt : ∀ q < f.size, f.minCls q < f.minClasses := by
    intro q hq
    unfold minCls minClasses
    rw [if_neg hpos]
    split <;> split
    · omega
    · omega
    · rename_i hne hall
      rw [List.all_eq_true] at hall
      have := hall q (List.mem_range.2 hq)
      simp only [decide_eq_true_eq] at this
      exact absurd this hne
    · omega
  have honto : ∀ k < f.minClasses, ∃ q < f.size, f.minCls q = k := by
    intro k hk
    have hk2 : k < 2 := by
      unfold minClasses at hk
      rw [if_neg hpos] at hk
      split at hk <;> omega
    by_cases hk0 : k = 0
    · exact ⟨0, by omega, by simp [minCls, hk0]⟩
    · have hk1 : k = 1 := by omega
      subst hk1
      unfold minClasses at hk
      rw [if_neg hpos] at hk
      split at hk
      · omega
      · rename_i hall
        rw [List.all_eq_true] at hall
        push Not at hall
        obtain ⟨q, hq, hne⟩ := hall
        refine ⟨q, List.mem_range.1 hq, ?_⟩
        unfold minCls
        rw [if_neg (by simpa using hne)]
  have hcpos : 0 < f.minClasses := by
    unfold minClasses; rw [if_neg hpos]; split <;> omega
  have key := MTask.run_spec h.minTask_wf (R := fun q q' => f.LangFrom q = f.LangFrom q') ?_ (cls0 := f.minCls) (n0 := f.minClasses)
    ?_ hlt honto hcpos
  · obtain ⟨k1, k2, k3, k4, k5⟩ := key
    refine ⟨k1, k2, k3, ?_, ?_, k5⟩
    · intro q hq q' hq' e
      exact (minCls_eq_iff q q').1 (k4 q hq q' hq' e).1
    · intro q hq q' hq' e en hen
      have := (k4 q hq q' hq' e).2 en.idx (h.wf.let_wf.idx_lt en hen)
      rwa [cdelta_eq h.wf hen, cdelta_eq h.wf hen] at this
  · intro q hq q' hq' e l hl
    obtain ⟨en, hen, rfl⟩ := exists_class h.wf hl
    rw [cdelta_eq h.wf hen, cdelta_eq h.wf hen]
    ext w
    rw [← h.cons_mem hq hen (h.wf.let_wf.rep_mem en hen), ← h.cons_mem hq' hen (h.wf.let_wf.rep_mem en hen), e]
  · intro q hq q' hq' e
    rw [minCls_eq_iff, ← h.nil_mem, ← h.nil_mem, e]

/-! ### The merged automaton -/

theorem mergeClasses_fields (f : Fsm) (cls : Nat → Nat) (n : Nat) :
    (f.mergeClasses cls n).size = n ∧ (f.mergeClasses cls n).initial = cls f.initial ∧
    (f.mergeClasses cls n).letters = f.letters ∧ (f.mergeClasses cls n).determined = f.determined ∧
    (f.mergeClasses cls n).isAlt = false ∧ (f.mergeClasses cls n).sparsed = f.sparsed ∧
    (∀ k, k ∈ (f.mergeClasses cls n).finals ↔ ∃ q < f.size, q ∈ f.finals ∧ cls q = k) := by
  have gen : ∀ (l) (g : Fsm), g.isAlt = false → (g.connectAll l).isAlt = false := by
    intro l g hg
    cases l with
    | nil => exact hg
    | cons t l => exact connectAll_isAlt _ _ (by simp)
  have fold : ∀ (l : List Nat) (s : Finset Nat) (k : Nat),
      k ∈ l.foldl (fun s q => if f.isFinal q then insert (cls q) s else s) s ↔
        k ∈ s ∨ ∃ q ∈ l, q ∈ f.finals ∧ cls q = k := by
    intro l
    induction l with
    | nil => simp
    | cons x xs ih =>
      intro s k
      rw [List.foldl_cons, ih]
      have hx : f.isFinal x = true ↔ x ∈ f.finals := by simp [isFinal]
      by_cases hf : x ∈ f.finals
      · rw [if_pos (hx.2 hf)]
        simp only [Finset.mem_insert, List.mem_cons, exists_eq_or_imp, hf, true_and]
        constructor
        · rintro ((rfl | h) | h)
          · exact .inr (.inl rfl)
          · exact .inl h
          · exact .inr (.inr h)
        · rintro (h | rfl | h)
          · exact .inl (.inr h)
          · exact .inl (.inl rfl)
          · exact .inr h
      · rw [if_neg (fun h => hf (hx.1 h))]
        simp [hf]
  unfold mergeClasses
  refine ⟨by simp [setFinal], by simp, by simp [setFinal], by simp [setFinal], ?_, by simp [setFinal], ?_⟩
  · exact gen _ _ (by simp [setFinal, resize, init])
  · intro k
    simp only
    rw [fold]
    simp [setFinal, resize, init]

theorem Det.mergeClasses_dst {f : Fsm} (h : f.Det) (cls : Nat → Nat) (n : Nat) (k c p : Nat) :
    p ∈ (f.mergeClasses cls n).dst k c ↔
      ∃ q < f.size, cls q = k ∧ ∃ e ∈ f.letters.set, e.rep = c ∧ p = cls (f.firstDst q c) := by
  unfold mergeClasses
  change p ∈ (Fsm.connectAll _ _).dst k c ↔ _
  rw [mem_dst_connectAll]
  have h0 : ∀ g : Fsm, g = Fsm.setFinal { init.resize n with letters := f.letters, determined := f.determined, sparsed := f.sparsed } 0 false →
      p ∉ g.dst k c := by
    rintro g rfl
    simp [dst, setFinal, resize, init]
  simp only [h0 _ rfl, false_or, List.mem_flatMap, List.mem_range, List.mem_map, Prod.mk.injEq]
  constructor
  · rintro ⟨q, hq, c', hc', rfl, rfl, rfl⟩
    obtain ⟨e, he, hr⟩ := (h.mem_rowKeys hq c').1 hc'
    exact ⟨q, hq, rfl, e, he, hr, rfl⟩
  · rintro ⟨q, hq, rfl, e, he, rfl, rfl⟩
    exact ⟨q, hq, e.rep, (h.mem_rowKeys hq _).2 ⟨e, he, rfl⟩, rfl, rfl, rfl⟩

theorem mergeClasses_isSome {f : Fsm} (h : f.Det) (cls : Nat → Nat) (n : Nat) (k c : Nat)
    (hs : (f.mergeClasses cls n).tr k c ≠ none) : ∃ p, p ∈ (f.mergeClasses cls n).dst k c := by
  have hs : ((f.mergeClasses cls n).tr k c).isSome = true := by
    cases ht : (f.mergeClasses cls n).tr k c with
    | none => exact absurd ht hs
    | some _ => rfl
  unfold mergeClasses at hs ⊢
  change ((Fsm.connectAll _ _).tr k c).isSome = true at hs
  rw [tr_connectAll_isSome] at hs
  rcases hs with hs | ⟨p, hp⟩
  · simp [setFinal, resize, init] at hs
  · refine ⟨p, ?_⟩
    change p ∈ (Fsm.connectAll _ _).dst k c
    rw [mem_dst_connectAll]
    exact .inr hp

theorem Det.mergeClasses_row {f : Fsm} (h : f.Det) {cls : Nat → Nat} {n : Nat} (hm : MinSpec f cls n) {q : Nat}
    (hq : q < f.size) {e : PClass} (he : e ∈ f.letters.set) :
    (f.mergeClasses cls n).tr (cls q) e.rep = some {cls (f.firstDst q e.rep)} := by
  have hd : ∀ p, p ∈ (f.mergeClasses cls n).dst (cls q) e.rep ↔ p = cls (f.firstDst q e.rep) := by
    intro p
    rw [h.mergeClasses_dst]
    constructor
    · rintro ⟨q', hq', hc, _, _, _, rfl⟩
      exact hm.step q' hq' q hq hc e he
    · rintro rfl
      exact ⟨q, hq, rfl, e, he, rfl, rfl⟩
  rw [tr_eq_some_dst ((hd _).2 rfl), Option.some.injEq]
  ext p
  rw [hd, Finset.mem_singleton]

theorem Det.mergeClasses_det {f : Fsm} (h : f.Det) {cls : Nat → Nat} {n : Nat} (hm : MinSpec f cls n) :
    (f.mergeClasses cls n).Det := by
  obtain ⟨a1, a2, a3, a4, a5, a6, a7⟩ := mergeClasses_fields f cls n
  refine ⟨⟨?_, ?_, ?_, ?_, ?_⟩, ?_, ?_, ?_, ?_⟩
  · rw [a1, a2]; exact hm.lt _ h.wf.init_lt
  · intro k hk
    obtain ⟨q, hq, _, rfl⟩ := (a7 k).1 hk
    rw [a1]; exact hm.lt q hq
  · intro k c S hS
    obtain ⟨p, hp⟩ := mergeClasses_isSome h cls n k c (by rw [hS]; simp)
    obtain ⟨q, hq, rfl, e, he, rfl, rfl⟩ := (h.mergeClasses_dst _ _ _ _ _).1 hp
    rw [h.mergeClasses_row hm hq he] at hS
    cases hS
    rw [a1]
    refine ⟨hm.lt q hq, (h.member_letter he (h.wf.let_wf.rep_mem e he)).1, ?_⟩
    intro p hp
    rw [Finset.mem_singleton] at hp
    subst hp
    exact hm.lt _ (h.tr_rep hq he).2
  · rw [a3]; exact h.wf.let_wf
  · rw [a3]; exact h.wf.let_lt
  · rw [a4]; exact h.flag
  · rw [a3]; exact h.all
  · intro k hk e he
    rw [a1] at hk
    rw [a3] at he
    obtain ⟨q, hq, rfl⟩ := hm.onto k hk
    exact ⟨_, h.mergeClasses_row hm hq he⟩
  · intro k c hs
    obtain ⟨p, hp⟩ := mergeClasses_isSome h cls n k c hs
    obtain ⟨q, hq, rfl, e, he, rfl, rfl⟩ := (h.mergeClasses_dst _ _ _ _ _).1 hp
    rw [a3]
    exact h.wf.let_wf.inv_of_mem he (h.wf.let_wf.rep_mem e he)

theorem Det.mergeClasses_langFrom {f : Fsm} (h : f.Det) {cls : Nat → Nat} {n : Nat} (hm : MinSpec f cls n) (w : List Nat) :
    ∀ q < f.size, (w ∈ (f.mergeClasses cls n).LangFrom (cls q) ↔ w ∈ f.LangFrom q) := by
  obtain ⟨a1, a2, a3, a4, a5, a6, a7⟩ := mergeClasses_fields f cls n
  have hd := h.mergeClasses_det hm
  induction w with
  | nil =>
    intro q hq
    rw [hd.nil_mem, h.nil_mem, a7]
    constructor
    · rintro ⟨q', hq', hf, e⟩; exact (hm.fin q' hq' q hq e).1 hf
    · intro hf; exact ⟨q, hq, hf, rfl⟩
  | cons c w ih =>
    intro q hq
    by_cases hc : IsLetter c
    · obtain ⟨e, he, hcm⟩ := h.mem_class hc
      have he' : e ∈ (f.mergeClasses cls n).letters.set := by rw [a3]; exact he
      rw [h.cons_mem hq he hcm, hd.cons_mem (by rw [a1]; exact hm.lt q hq) he' hcm]
      have : (f.mergeClasses cls n).firstDst (cls q) e.rep = cls (f.firstDst q e.rep) :=
        firstDst_eq (h.mergeClasses_row hm hq he)
      rw [this]
      exact ih _ (h.tr_rep hq he).2
    · constructor
      · intro hw; exact absurd (hd.wf.lang_word hw c (by simp)) hc
      · intro hw; exact absurd (h.wf.lang_word hw c (by simp)) hc

theorem swapFrom_edge (f d : Fsm) : (Fsm.swapFrom f d).Edge = d.Edge := edge_congr rfl rfl

theorem swapFrom_langFrom (f d : Fsm) (q : Nat) : (Fsm.swapFrom f d).LangFrom q = d.LangFrom q := by
  rw [LangFrom, LangFrom, swapFrom_edge]; rfl

/-- What `Minimize` does to a determined automaton. -/
theorem Det.minimize {f : Fsm} (h : f.Det) :
    f.minimize.Det ∧ f.minimize.Lang = f.Lang ∧ f.minimize.size ≤ f.size ∧ f.minimize.isAlt = false ∧
    f.minimize.letters = f.letters ∧ f.minimize.sparsed = f.sparsed ∧
    (∃ cls : Nat → Nat, (∀ q < f.size, cls q < f.minimize.size ∧ f.minimize.LangFrom (cls q) = f.LangFrom q) ∧
      (∀ k < f.minimize.size, ∃ q < f.size, cls q = k) ∧ cls f.initial = f.minimize.initial) ∧
    (∀ k < f.minimize.size, ∀ k' < f.minimize.size, f.minimize.LangFrom k = f.minimize.LangFrom k' → k = k') := by
  have hm := h.minSpec
  unfold Fsm.minimize
  rw [if_pos h.flag]
  simp only
  set cls := (f.minTask.run f.minCls f.minClasses).cls
  set n := (f.minTask.run f.minCls f.minClasses).classes
  obtain ⟨a1, a2, a3, a4, a5, a6, a7⟩ := mergeClasses_fields f cls n
  have hl : ∀ q < f.size, (Fsm.swapFrom f (f.mergeClasses cls n)).LangFrom (cls q) = f.LangFrom q := by
    intro q hq
    rw [swapFrom_langFrom]
    ext w
    exact h.mergeClasses_langFrom hm w q hq
  refine ⟨(h.mergeClasses_det hm).swapFrom, ?_, ?_, a5, a3, rfl, ⟨cls, ?_, ?_, a2.symm⟩, ?_⟩
  · have : (Fsm.swapFrom f (f.mergeClasses cls n)).initial = cls f.initial := a2
    rw [Lang, Lang, this]
    exact hl _ h.wf.init_lt
  · exact a1.le.trans hm.le
  · intro q hq
    refine ⟨?_, hl q hq⟩
    change cls q < (f.mergeClasses cls n).size
    rw [a1]; exact hm.lt q hq
  · intro k hk
    change k < (f.mergeClasses cls n).size at hk
    rw [a1] at hk
    exact hm.onto k hk
  · intro k hk k' hk' e
    change k < (f.mergeClasses cls n).size at hk
    change k' < (f.mergeClasses cls n).size at hk'
    rw [a1] at hk hk'
    obtain ⟨q, hq, rfl⟩ := hm.onto k hk
    obtain ⟨q', hq', rfl⟩ := hm.onto k' hk'
    rw [hl q hq, hl q' hq'] at e
    exact hm.coarse q hq q' hq' e

end Fsm
end Pire
