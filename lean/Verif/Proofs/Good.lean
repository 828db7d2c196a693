import Verif.Proofs.Complement

/-! # Every operation keeps the invariant `Good` -/

namespace Pire
namespace Fsm

open Spec

theorem connectAll_isAlt' {g : Fsm} (l) (hg : g.isAlt = false) : (g.connectAll l).isAlt = false := by
  cases l with
  | nil => exact hg
  | cons t l => exact connectAll_isAlt _ _ (by simp)

theorem foldl_setFinal_misc (l : List Nat) (n : Nat) (g : Fsm) :
    (l.foldl (fun h q => h.setFinal (q + n) true) g).isAlt = g.isAlt := by
  induction l generalizing g with
  | nil => rfl
  | cons x xs ih => rw [List.foldl_cons, ih]; rfl

theorem concat_flags (f rhs : Fsm) : (f.concat rhs).isAlt = false ∧ (f.concat rhs).determined = false := ⟨rfl, rfl⟩

theorem Good.concat {f g : Fsm} (h : f.Good) (h2 : g.Good) : (f.concat g).Good :=
  .of_raw (WF.concat h.wf h.coh h2.wf h2.coh) (concat_raw h.wf h.coh h2.wf h2.coh) (.of_false (concat_flags f g).1)
    (concat_flags f g).2

theorem union_determined (f rhs : Fsm) : (f.union rhs).determined = false := rfl

theorem Good.union {f g : Fsm} (h : f.Good) (h2 : g.Good) : (f.union g).Good := by
  have hs := union_shape h.wf h.coh h.alt h2.wf h2.coh h2.alt
  exact .of_raw hs.wf hs.raw hs.altInv (union_determined f g)

theorem appendChar_flags (f : Fsm) (c : Nat) : (f.appendChar c).isAlt = false ∧ (f.appendChar c).determined = false := ⟨rfl, rfl⟩

theorem appendStr_good {f : Fsm} (h : f.Good) (hr : f.Raw) {s : List Nat} (hs : IsWord s) : (f.appendStr s).Good := by
  induction s generalizing f with
  | nil => exact h
  | cons c s ih =>
    have hc := hs c (by simp)
    refine ih (f := f.appendChar c) ?_ (hr.appendChar c) (fun x hx => hs x (List.mem_cons_of_mem _ hx))
    exact .of_raw (h.wf.appendChar hc.1) (hr.appendChar c) (.of_false (appendChar_flags f c).1) (appendChar_flags f c).2

theorem appendStr_initial_not_final {f : Fsm} (h : f.WF) {s : List Nat} (hs : IsWord s) (hne : s ≠ []) :
    (f.appendStr s).initial ∉ (f.appendStr s).finals := by
  have key : ∀ (s : List Nat) (g : Fsm), g.WF → IsWord s → g.initial ∉ g.finals →
      (g.appendStr s).initial ∉ (g.appendStr s).finals := by
    intro s
    induction s with
    | nil => intro g _ _ h; exact h
    | cons c s ih =>
      intro g hg hs _
      apply ih (g.appendChar c) (hg.appendChar (hs c (by simp)).1) (fun x hx => hs x (List.mem_cons_of_mem _ hx))
      rw [appendChar_initial, appendChar_finals, Finset.mem_singleton]
      have := hg.init_lt
      omega
  cases s with
  | nil => exact absurd rfl hne
  | cons c s =>
    apply key s (f.appendChar c) (h.appendChar (hs c (by simp)).1) (fun x hx => hs x (List.mem_cons_of_mem _ hx))
    rw [appendChar_initial, appendChar_finals, Finset.mem_singleton]
    have := h.init_lt
    omega

theorem foldl_connectFinal_isAlt (l : List Nat) (g : Fsm) (h : g.isAlt = false) :
    (l.foldl (fun g c => g.connectFinal (g.size - 1) c) g).isAlt = false := by
  induction l generalizing g with
  | nil => exact h
  | cons c l ih => rw [List.foldl_cons]; exact ih _ rfl

theorem appendLetters_determined (f : Fsm) (l : List Nat) : (f.appendLetters l).determined = false := rfl

theorem Good.appendDot {f : Fsm} (h : f.Good) (hr : f.Raw) (ha : f.isAlt = false) : f.appendDot.Good := by
  refine .of_raw h.wf.appendDot ?_ (.of_false ?_) (appendLetters_determined f _)
  · exact (appendLetters_fields f (List.range 256)).2.2.2.trans hr
  · rw [Fsm.appendDot]
    generalize List.range 256 = l
    exact foldl_connectFinal_isAlt _ _ ha

theorem Good.iterate {f : Fsm} (h : f.Good) : f.iterate.Good := by
  refine h.epsExt ?_ h.wf.iterate rfl rfl
  have e1 := EpsExt.resize h.wf (n := f.size + 2) (by omega)
  have e2 := EpsExt.connect (f.resize (f.size + 2)) (f.size + 2 - 2) (f.size + 2 - 1)
  have e3 := EpsExt.connect ((f.resize (f.size + 2)).connect (f.size + 2 - 2) (f.size + 2 - 1) 257) (f.size + 2 - 2) f.initial
  have e4 := EpsExt.connectFinal (((f.resize (f.size + 2)).connect (f.size + 2 - 2) (f.size + 2 - 1) 257).connect
    (f.size + 2 - 2) f.initial 257) f.initial
  have e5 := EpsExt.connectFinal ((((f.resize (f.size + 2)).connect (f.size + 2 - 2) (f.size + 2 - 1) 257).connect
    (f.size + 2 - 2) f.initial 257).connectFinal f.initial 257) (f.size + 2 - 1)
  have h1 : f.iterate.tr = (((((f.resize (f.size + 2)).connect f.size (f.size + 1) 257).connect
    f.size f.initial 257).connectFinal f.initial 257).connectFinal (f.size + 1) 257).tr := by
    simp [Fsm.iterate, clearFinal, setFinal]
  exact ((((e1.trans e2).trans e3).trans e4).trans e5).congr h1 (by simp [Fsm.iterate, clearFinal, setFinal])

theorem iterate_initial_not_final (f : Fsm) : f.iterate.initial ∉ f.iterate.finals := by
  rw [iterate_initial, iterate_finals, Finset.mem_singleton]; omega

/-- All letters loop at a fresh state. -/
def addLoops (f : Fsm) : Fsm :=
  (f.resize (f.size + 1)).connectAll ((List.range MaxChar).map fun c => (f.size, f.size, c))

theorem addLoops_tr {f : Fsm} (h : f.WF) (q c : Nat) :
    f.addLoops.tr q c = if q = f.size ∧ c < 264 then some {f.size} else f.tr q c := by
  have hmem : ∀ q x c, (q, x, c) ∈ (List.range MaxChar).map (fun c => (f.size, f.size, c)) ↔ q = f.size ∧ x = f.size ∧ c < 264 := by
    intro q x c
    simp only [List.mem_map, List.mem_range, Prod.mk.injEq]
    constructor
    · rintro ⟨a, ha, rfl, rfl, rfl⟩; exact ⟨rfl, rfl, ha⟩
    · rintro ⟨rfl, rfl, h⟩; exact ⟨c, h, rfl, rfl, rfl⟩
  by_cases hq : q = f.size ∧ c < 264
  · rw [if_pos hq]
    have hd : ∀ x, x ∈ f.addLoops.dst q c ↔ x = f.size := by
      intro x
      rw [addLoops, mem_dst_connectAll, dst_congr (h.resize_tr (by omega)), h.dst_of_ge (by omega), hmem]
      simp [hq.1, hq.2]
    rw [tr_eq_some_dst ((hd f.size).2 rfl), Option.some.injEq]
    ext x
    rw [hd, Finset.mem_singleton]
  · rw [if_neg hq, addLoops, tr_connectAll_of_forall_ne, h.resize_tr (by omega)]
    intro x hx
    have := (hmem _ _ _).1 hx
    exact hq ⟨this.1, this.2.2⟩

theorem addLoops_letters (f : Fsm) : f.addLoops.letters = f.letters := by simp [addLoops]

theorem WF.addLoops {f : Fsm} (h : f.WF) : f.addLoops.WF := by
  apply (h.resize (by omega)).connectAll
  intro q p c hm
  simp only [List.mem_map, List.mem_range, Prod.mk.injEq] at hm
  obtain ⟨a, ha, rfl, rfl, rfl⟩ := hm
  simp only [resize_size]
  exact ⟨by omega, by omega, ha⟩

theorem Coh.addLoops {f : Fsm} (hw : f.WF) (h : f.Coh) : f.addLoops.Coh := by
  intro q c r hr
  rw [addLoops_letters] at hr
  rw [addLoops_tr hw, addLoops_tr hw]
  by_cases hq : q = f.size
  · rw [if_pos ⟨hq, (hw.let_lt _ _ hr).1⟩, if_pos ⟨hq, (hw.rep_lt hr).1⟩]
    exact .inr rfl
  · rw [if_neg (fun h => hq h.1), if_neg (fun h => hq h.1)]
    exact h q c r hr

theorem ColCoh.addLoops {f : Fsm} (hw : f.WF) (h : f.ColCoh) : f.addLoops.ColCoh := by
  intro c r hr p
  rw [addLoops_letters] at hr
  have hc := (hw.let_lt _ _ hr).1
  have hr' := (hw.rep_lt hr).1
  have hd : ∀ q c, c < 264 → (p ∈ f.addLoops.dst q c ↔ (q = f.size ∧ p = f.size) ∨ p ∈ f.dst q c) := by
    intro q c hc
    rw [dst, addLoops_tr hw]
    by_cases hq : q = f.size
    · rw [if_pos ⟨hq, hc⟩, hq, hw.dst_of_ge (le_refl _)]; simp
    · rw [if_neg (fun h => hq h.1)]
      simp [hq, dst]
  by_cases hp : p = f.size
  · right
    intro q
    rw [hd q c hc, hd q r hr']
    have no : ∀ c, p ∉ f.dst q c := by
      intro c hm
      have := (hw.dst_lt hm).2.2
      omega
    simp [no]
  · rcases h c r hr p with h1 | h1
    · left
      intro q
      rw [hd q c hc]
      simp [hp, h1 q]
    · right
      intro q
      rw [hd q c hc, hd q r hr', h1 q]

theorem Good.prependAnything {f : Fsm} (h : f.Good) : f.prependAnything.Good := by
  have he : EpsExt f.addLoops f.prependAnything :=
    EpsExt.congr (EpsExt.connect f.addLoops f.size f.initial) (by simp [Fsm.prependAnything, addLoops])
      (by simp [Fsm.prependAnything, addLoops])
  refine ⟨h.wf.prependAnything, (h.coh.addLoops h.wf).epsExt h.wf.addLoops he, (h.col.addLoops h.wf).epsExt h.wf.addLoops he,
    .of_false rfl, fun h => ?_⟩
  cases h

theorem Good.appendAnything {f : Fsm} (h : f.Good) : f.appendAnything.Good := by
  have he : EpsExt f.addLoops f.appendAnything :=
    EpsExt.congr (EpsExt.connectFinal f.addLoops f.size) (by simp [Fsm.appendAnything, addLoops, clearFinal, setFinal])
      (by simp [Fsm.appendAnything, addLoops, clearFinal, setFinal])
  refine ⟨h.wf.appendAnything, (h.coh.addLoops h.wf).epsExt h.wf.addLoops he, (h.col.addLoops h.wf).epsExt h.wf.addLoops he,
    .of_false rfl, fun h => ?_⟩
  cases h

theorem Good.surround {f : Fsm} (h : f.Good) : f.surround.Good := h.prependAnything.appendAnything

theorem appendAnything_initial_not_final {f : Fsm} (h : f.WF) : f.appendAnything.initial ∉ f.appendAnything.finals := by
  rw [appendAnything_initial, appendAnything_finals, Finset.mem_singleton]
  have := h.init_lt
  omega

theorem power_good {f : Fsm} (h : f.Good) (n : Nat) : (f.power n).Good := by
  induction n with
  | zero => exact .init
  | succ n ih => exact ih.concat h

theorem power_initial_not_final {f : Fsm} (h : f.Good) {n : Nat} (hn : n ≠ 0) : (f.power n).initial ∉ (f.power n).finals := by
  cases n with
  | zero => exact absurd rfl hn
  | succ n => exact concat_initial_not_final (power_good h n).wf (power_good h n).coh h.wf h.coh

theorem reverse_dst {f : Fsm} (h : f.WF) {c : Nat} (hc : c ≠ 257) (q p : Nat) : p ∈ f.reverse.dst q c ↔ q ∈ f.dst p c := by
  rw [dst_congr (reverse_tr f), mem_dst_connectAll, mem_dst_connectAll, mem_revList h]
  have h0 : p ∉ ({ Fsm.init.resize (f.size + 1) with letters := f.letters } : Fsm).dst q c := by
    simp [dst, Fsm.init, Fsm.resize]
  simp only [h0, false_or, List.mem_map, Prod.mk.injEq]
  constructor
  · rintro (h | ⟨_, _, _, _, h⟩)
    · exact h
    · exact absurd h.symm hc
  · exact Or.inl

theorem reverse_tr_some {f : Fsm} {q c : Nat} (hs : f.reverse.tr q c ≠ none) : ∃ p, p ∈ f.reverse.dst q c := by
  have hs : (f.reverse.tr q c).isSome = true := by
    cases ht : f.reverse.tr q c with
    | none => exact absurd ht hs
    | some _ => rfl
  rw [reverse_tr, tr_connectAll_isSome, tr_connectAll_isSome] at hs
  rcases hs with (hs | ⟨p, hp⟩) | ⟨p, hp⟩
  · simp [Fsm.init, Fsm.resize] at hs
  · exact ⟨p, by rw [dst_congr (reverse_tr f), mem_dst_connectAll, mem_dst_connectAll]; exact .inl (.inr hp)⟩
  · exact ⟨p, by rw [dst_congr (reverse_tr f), mem_dst_connectAll]; exact .inr hp⟩

theorem reverse_determined (f : Fsm) : f.reverse.determined = false := by
  simp [reverse, swapFrom, setInitial, setFinal, Fsm.init, Fsm.resize]

theorem Good.reverse {f : Fsm} (h : f.Good) : f.reverse.Good := by
  have hl := (reverse_fields f).2.2.2
  refine ⟨h.wf.reverse, ?_, ?_, .of_false reverse_isAlt, fun hd => by rw [reverse_determined] at hd; cases hd⟩
  · intro q c r hr
    rw [hl] at hr
    have hc := (h.wf.let_lt _ _ hr).2
    have hr' := (h.wf.rep_lt hr).2
    by_cases hn : f.reverse.tr q c = none
    · exact .inl hn
    · right
      obtain ⟨p, hp⟩ := reverse_tr_some hn
      rcases h.col c r hr q with h1 | h1
      · exact absurd ((reverse_dst h.wf hc q p).1 hp) (h1 p)
      · have hp' : p ∈ f.reverse.dst q r := (reverse_dst h.wf hr' q p).2 ((h1 p).1 ((reverse_dst h.wf hc q p).1 hp))
        rw [tr_eq_some_dst hp, tr_eq_some_dst hp', Option.some.injEq]
        ext x
        rw [reverse_dst h.wf hc, reverse_dst h.wf hr', h1 x]
  · intro c r hr p
    rw [hl] at hr
    have hc := (h.wf.let_lt _ _ hr).2
    have hr' := (h.wf.rep_lt hr).2
    rcases h.coh p c r hr with h1 | h1
    · left
      intro q hq
      rw [reverse_dst h.wf hc, dst, h1] at hq
      simp at hq
    · right
      intro q
      rw [reverse_dst h.wf hc, reverse_dst h.wf hr', dst, dst, h1]

theorem reverse_initial_not_final {f : Fsm} (h : f.WF) : f.reverse.initial ∉ f.reverse.finals := by
  obtain ⟨-, h2, h3, -⟩ := reverse_fields f
  rw [h2, h3, Finset.mem_singleton]
  have := h.init_lt
  omega

end Fsm
end Pire
