import Verif.Proofs.Minimize
import Verif.Proofs.FsmMore

/-! # Complement, intersection, canonisation; the invariant kept by all operations -/

namespace Pire
namespace Fsm

open Spec

/-! ### Adding epsilon transitions keeps the storage invariants -/

/-- `g` is `f` with epsilon transitions added. -/
def EpsExt (f g : Fsm) : Prop := g.letters = f.letters ∧ ∀ q c, c ≠ 257 → g.tr q c = f.tr q c

theorem EpsExt.refl (f : Fsm) : EpsExt f f := ⟨rfl, fun _ _ _ => rfl⟩

theorem EpsExt.trans {f g h : Fsm} (a : EpsExt f g) (b : EpsExt g h) : EpsExt f h :=
  ⟨b.1.trans a.1, fun q c hc => (b.2 q c hc).trans (a.2 q c hc)⟩

theorem EpsExt.connectAll (f : Fsm) {l : List (Nat × Nat × Nat)} (hl : ∀ q p c, (q, p, c) ∈ l → c = 257) :
    EpsExt f (f.connectAll l) := by
  refine ⟨by simp, ?_⟩
  intro q c hc
  apply tr_connectAll_of_forall_ne
  intro x hx
  exact hc (hl _ _ _ hx)

theorem EpsExt.connect (f : Fsm) (q p : Nat) : EpsExt f (f.connect q p 257) := by
  rw [connect_eq_connectAll]
  apply EpsExt.connectAll
  intro a b c hm
  simp only [List.mem_singleton, Prod.mk.injEq] at hm
  exact hm.2.2

theorem EpsExt.connectFinal (f : Fsm) (p : Nat) : EpsExt f (f.connectFinal p 257) := by
  have : EpsExt f (f.connectAll ((elems f.finals).map fun q => (q, p, 257))) := by
    apply EpsExt.connectAll
    intro a b c hm
    simp only [List.mem_map, Prod.mk.injEq] at hm
    obtain ⟨_, _, _, _, rfl⟩ := hm
    rfl
  exact this

theorem EpsExt.resize {f : Fsm} (h : f.WF) {n : Nat} (hn : f.size ≤ n) : EpsExt f (f.resize n) :=
  ⟨rfl, fun q c _ => by rw [h.resize_tr hn]⟩

theorem EpsExt.congr {f g g' : Fsm} (h : EpsExt f g) (ht : g'.tr = g.tr) (hl : g'.letters = g.letters) : EpsExt f g' :=
  ⟨hl.trans h.1, fun q c hc => by rw [ht]; exact h.2 q c hc⟩

/-- The transposed form of `Coh`, needed for `Reverse`. -/
def ColCoh (f : Fsm) : Prop := ∀ c r, f.letters.inv c = some r → ∀ p,
  (∀ q, p ∉ f.dst q c) ∨ (∀ q, p ∈ f.dst q c ↔ p ∈ f.dst q r)

theorem Raw.colCoh {f : Fsm} (h : f.Raw) : f.ColCoh := by
  intro c r hc; rw [h] at hc; simp [Partition.empty] at hc

theorem Coh.epsExt {f g : Fsm} (hw : f.WF) (h : f.Coh) (he : EpsExt f g) : g.Coh := by
  intro q c r hr
  rw [he.1] at hr
  rw [he.2 q c (hw.let_lt _ _ hr).2, he.2 q r (hw.rep_lt hr).2]
  exact h q c r hr

theorem ColCoh.epsExt {f g : Fsm} (hw : f.WF) (h : f.ColCoh) (he : EpsExt f g) : g.ColCoh := by
  intro c r hr p
  rw [he.1] at hr
  have e1 : ∀ q, g.dst q c = f.dst q c := fun q => by rw [dst, dst, he.2 q c (hw.let_lt _ _ hr).2]
  have e2 : ∀ q, g.dst q r = f.dst q r := fun q => by rw [dst, dst, he.2 q r (hw.rep_lt hr).2]
  simp only [e1, e2]
  exact h c r hr p

theorem Det.colCoh {f : Fsm} (h : f.Det) : f.ColCoh := by
  intro c r hr p
  by_cases hcr : c = r
  · subst hcr; exact .inr fun _ => Iff.rfl
  · left
    intro q hq
    have := h.keys q c (by rw [tr_eq_some_dst hq]; simp)
    rw [hr] at this
    cases this; exact hcr rfl

/-- What every operation of the interface maintains. -/
structure Good (f : Fsm) : Prop where
  wf : f.WF
  coh : f.Coh
  col : f.ColCoh
  alt : f.AltInv
  det : f.determined = true → f.Det

theorem Good.of_raw {f : Fsm} (hw : f.WF) (hr : f.Raw) (ha : f.AltInv) (hd : f.determined = false) : f.Good :=
  ⟨hw, hr.coh, hr.colCoh, ha, fun h => by rw [hd] at h; cases h⟩

theorem Good.epsExt {f g : Fsm} (h : f.Good) (he : EpsExt f g) (hw : g.WF) (ha : g.isAlt = false)
    (hd : g.determined = false) : g.Good :=
  ⟨hw, h.coh.epsExt h.wf he, h.col.epsExt h.wf he, .of_false ha, fun h => by rw [hd] at h; cases h⟩

theorem Good.of_det {f : Fsm} (h : f.Det) (ha : f.isAlt = false) : f.Good :=
  ⟨h.wf, h.coh, h.colCoh, .of_false ha, fun _ => h⟩

/-! ### Runs of a deterministic automaton -/

theorem Det.exists_run {f : Fsm} (h : f.Det) {w : List Nat} (hw : IsWord w) : ∀ {q}, q < f.size → ∃ p, p < f.size ∧ Run f.Edge q w p := by
  induction w with
  | nil => intro q hq; exact ⟨q, hq, .refl _⟩
  | cons c w ih =>
    intro q hq
    have hc := hw c (by simp)
    obtain ⟨p, hp⟩ := h.exists_edge hq hc
    obtain ⟨p', hp', hr⟩ := ih (fun x hx => hw x (List.mem_cons_of_mem _ hx)) (h.wf.edge_lt hp).2.2
    exact ⟨p', hp', .step hc.2 hp hr⟩

theorem Det.run_unique {f : Fsm} (h : f.Det) {q w p p'} (hr : Run f.Edge q w p) (hr' : Run f.Edge q w p') : p = p' := by
  induction hr with
  | refl => cases hr' with
    | refl => rfl
    | eps e _ => exact absurd e h.no_eps
  | eps e _ _ => exact absurd e h.no_eps
  | step _ e _ ih => cases hr' with
    | eps e' _ => exact absurd e' h.no_eps
    | step _ e' hr'' =>
      have := h.edge_unique e e'
      subst this
      exact ih hr''

/-! ### Complement -/

/-- The part of `Complement` after `Determine` and `Minimize`. -/
def complementCore (f : Fsm) : Fsm :=
  let f := f.resize (f.size + 1)
  let f := f.connectAll (((List.range f.size).filter fun i => !f.isFinal i).map fun i => (i, f.size - 1, Epsilon))
  let f := f.clearFinal
  let f := f.setFinal (f.size - 1) true
  { f with determined := false }

theorem complement_eq (f : Fsm) : f.complement =
    if (f.determine).2 then some (f.determine).1.minimize.complementCore else none := rfl

theorem complementCore_fields (f : Fsm) : f.complementCore.size = f.size + 1 ∧ f.complementCore.initial = f.initial ∧
    f.complementCore.finals = {f.size} ∧ f.complementCore.letters = f.letters ∧ f.complementCore.determined = false := by
  simp [complementCore, clearFinal, setFinal]

theorem complementCore_isAlt {f : Fsm} (h : f.isAlt = false) : f.complementCore.isAlt = false := by
  have gen : ∀ (l) (g : Fsm), g.isAlt = false → (g.connectAll l).isAlt = false := by
    intro l g hg
    cases l with
    | nil => exact hg
    | cons t l => exact connectAll_isAlt _ _ (by simp)
  exact gen _ _ h

theorem complementCore_ext {f : Fsm} (h : f.WF) : EpsExt f f.complementCore := by
  refine (EpsExt.resize h (n := f.size + 1) (by omega)).trans ?_
  refine EpsExt.congr (EpsExt.connectAll _ (l := (((List.range (f.size + 1)).filter fun i => !(f.resize (f.size + 1)).isFinal i).map
    fun i => (i, f.size + 1 - 1, Epsilon))) ?_) rfl rfl
  intro q p c hm
  simp only [List.mem_map, Prod.mk.injEq] at hm
  obtain ⟨_, _, _, _, rfl⟩ := hm
  rfl

theorem complementCore_edge {f : Fsm} (h : f.WF) (q c p : Nat) :
    f.complementCore.Edge q c p ↔ f.Edge q c p ∨ (q < f.size + 1 ∧ q ∉ f.finals ∧ p = f.size ∧ c = 257) := by
  have h1 : f.complementCore.Edge = ((f.resize (f.size + 1)).connectAll
    (((List.range (f.size + 1)).filter fun i => !(f.resize (f.size + 1)).isFinal i).map
    fun i => (i, f.size + 1 - 1, Epsilon))).Edge := edge_congr rfl rfl
  rw [h1, edge_connectAll, resize_edge h (by omega)]
  apply or_congr_right
  have hk : (f.resize (f.size + 1)).key c = 257 ↔ c = 257 := by
    rw [key_congr (resize_letters f _)]; exact h.key_eq_eps
  have hf : ∀ i, (!(f.resize (f.size + 1)).isFinal i) = true ↔ i ∉ f.finals := by
    intro i
    rw [Bool.not_eq_true', isFinal, decide_eq_false_iff_not]; rfl
  simp only [List.mem_map, List.mem_filter, List.mem_range, Prod.mk.injEq, hf]
  constructor
  · rintro ⟨a, ⟨h1, h2⟩, rfl, h3, h4⟩
    exact ⟨h1, h2, by omega, hk.1 h4.symm⟩
  · rintro ⟨h1, h2, rfl, h4⟩
    exact ⟨q, ⟨h1, h2⟩, rfl, by omega, (hk.2 h4).symm⟩

theorem WF.complementCore {f : Fsm} (h : f.WF) : f.complementCore.WF := by
  have hi := h.init_lt
  have h1 : ((f.resize (f.size + 1)).connectAll
    (((List.range (f.size + 1)).filter fun i => !(f.resize (f.size + 1)).isFinal i).map
    fun i => (i, f.size + 1 - 1, Epsilon))).WF := by
    apply (h.resize (by omega)).connectAll
    intro q p c hm
    simp only [List.mem_map, List.mem_filter, List.mem_range, Prod.mk.injEq] at hm
    obtain ⟨a, ⟨ha, _⟩, rfl, rfl, rfl⟩ := hm
    refine ⟨ha, ?_, by decide⟩
    simp
  obtain ⟨a1, a2, a3, a4, a5⟩ := complementCore_fields f
  refine h1.congr (by rw [a1]; simp) ?_ ?_ rfl rfl
  · rw [a1, a2]; omega
  · intro q hq
    rw [a3, Finset.mem_singleton] at hq
    rw [a1]; omega

theorem Det.complementCore_lang {f : Fsm} (h : f.Det) : f.complementCore.Lang = Spec.compl f.Lang := by
  have hE := complementCore_edge h.wf
  obtain ⟨a1, a2, a3, a4, a5⟩ := complementCore_fields f
  -- runs of the result
  have sink : ∀ {q w p}, Run f.complementCore.Edge q w p → q = f.size → w = [] := by
    intro q w p hr
    induction hr with
    | refl => intro; rfl
    | eps e _ ih =>
      rintro rfl
      rcases (hE _ _ _).1 e with e | ⟨_, _, e, _⟩
      · have := (h.wf.edge_lt e).1; omega
      · exact ih e
    | step hc e _ _ =>
      rintro rfl
      rcases (hE _ _ _).1 e with e | ⟨_, _, _, e⟩
      · have := (h.wf.edge_lt e).1; omega
      · exact absurd e hc
  have fwd : ∀ {q w p}, Run f.complementCore.Edge q w p → p = f.size → q < f.size → ∃ q', q' ∉ f.finals ∧ q' < f.size ∧ Run f.Edge q w q' := by
    intro q w p hr
    induction hr with
    | refl => rintro rfl hq; omega
    | @eps q q' w p e hr ih =>
      intro hp hq
      rcases (hE _ _ _).1 e with e | ⟨_, e1, e2, _⟩
      · exact absurd e h.no_eps
      · have hw := sink hr e2
        subst hw
        exact ⟨q, e1, hq, .refl _⟩
    | @step q c q' w p hc e hr ih =>
      intro hp hq
      rcases (hE _ _ _).1 e with e | ⟨_, _, _, e⟩
      · obtain ⟨x, hx, hx', hr'⟩ := ih hp (h.wf.edge_lt e).2.2
        exact ⟨x, hx, hx', .step hc e hr'⟩
      · exact absurd e hc
  ext w
  rw [mem_lang, a2, a3]
  simp only [Finset.mem_singleton, exists_eq_left]
  constructor
  · intro hr
    obtain ⟨q, hq, hq', hrun⟩ := fwd hr rfl h.wf.init_lt
    refine ⟨h.wf.run_word hrun, ?_⟩
    rintro ⟨p, hp, hr'⟩
    rw [h.run_unique hr' hrun] at hp
    exact hq hp
  · rintro ⟨hw, hn⟩
    obtain ⟨p, hp, hr⟩ := h.exists_run hw h.wf.init_lt
    have hpf : p ∉ f.finals := fun hf => hn ⟨p, hf, hr⟩
    have h1 : Run f.complementCore.Edge f.initial w p := hr.mono fun _ _ _ e => (hE _ _ _).2 (.inl e)
    have h2 : Run f.complementCore.Edge p [] f.size := .eps ((hE _ _ _).2 (.inr ⟨by omega, hpf, rfl, rfl⟩)) (.refl _)
    have := h1.trans h2
    rwa [List.append_nil] at this

/-- After a successful `Determine`. -/
theorem determine_det {f : Fsm} (h : f.Good) {m : Nat} (ok : (f.determine m).2 = true) :
    (f.determine m).1.Det ∧ (f.determine m).1.Lang = f.Lang := by
  cases hf : f.determined with
  | true =>
    have : f.determine m = (f, true) := by simp [determine, hf]
    rw [this]; exact ⟨h.det hf, rfl⟩
  | false =>
    have := (determine_spec h.wf hf m).1 ok
    exact ⟨this.1, this.2.1⟩

theorem complement_spec {f g : Fsm} (h : f.Good) (hg : f.complement = some g) :
    g.Good ∧ g.Lang = Spec.compl f.Lang ∧ g.initial ∉ g.finals := by
  rw [complement_eq] at hg
  split at hg
  · rename_i ok
    cases hg
    obtain ⟨h1, h2⟩ := determine_det h ok
    obtain ⟨m1, m2, m3, m4, -⟩ := h1.minimize
    obtain ⟨a1, a2, a3, a4, a5⟩ := complementCore_fields (f.determine).1.minimize
    refine ⟨(Good.of_det m1 m4).epsExt (complementCore_ext m1.wf) m1.wf.complementCore (complementCore_isAlt m4) a5, ?_, ?_⟩
    · rw [m1.complementCore_lang, m2, h2]
    · rw [a2, a3, Finset.mem_singleton]
      have := m1.wf.init_lt
      omega
  · cases hg

theorem canonize_spec {f g : Fsm} (h : f.Good) {m : Nat} (hg : f.canonize m = some g) :
    g.Det ∧ g.isAlt = false ∧ g.Lang = f.Lang ∧
    ∀ k < g.size, ∀ k' < g.size, g.LangFrom k = g.LangFrom k' → k = k' := by
  unfold canonize at hg
  cases hf : f.determined with
  | true =>
    rw [if_pos hf] at hg
    cases hg
    obtain ⟨m1, m2, m3, m4, m5, m6, m7, m8⟩ := (h.det hf).minimize
    exact ⟨m1, m4, m2, m8⟩
  | false =>
    rw [if_neg (by simp [hf])] at hg
    simp only at hg
    split at hg
    · rename_i ok
      cases hg
      obtain ⟨h1, h2⟩ := determine_det h ok
      obtain ⟨m1, m2, m3, m4, m5, m6, m7, m8⟩ := h1.minimize
      exact ⟨m1, m4, m2.trans h2, m8⟩
    · cases hg

/-! ### The invariant is kept -/

theorem Good.init : Fsm.init.Good := .of_raw WF.init init_raw (.of_false rfl) rfl

theorem Good.makeFalse : Fsm.makeFalse.Good := by
  refine .of_raw ?_ rfl (.of_false rfl) rfl
  exact WF.init.setFinal (by decide)

end Fsm
end Pire
