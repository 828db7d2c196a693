import Verif.Proofs.CaptureRun
import Verif.Proofs.Slow

/-!
# `SlowCapturingScanner`: what the constructor puts into the arrays
-/

namespace Pire
namespace Capture
open Spec Slow

theorem foldl_modify {α : Type} (W : List (Nat × α)) (i : Nat) : ∀ v : List (List α),
    (W.foldl (fun v w => v.modify w.1 (· ++ [w.2])) v)[i]? = v[i]?.map (· ++ (W.filter fun w => w.1 = i).map Prod.snd) := by
  induction W with
  | nil => intro v; simp
  | cons w W ih =>
    intro v
    rw [List.foldl_cons, ih, List.getElem?_modify]
    by_cases h : w.1 = i
    · rw [List.filter_cons_of_pos (by simpa using h)]
      generalize v[i]? = o
      cases o <;> simp [h]
    · rw [List.filter_cons_of_neg (by simpa using h)]
      generalize v[i]? = o
      cases o <;> simp [h]

/-- The writes that make up the table of a packed automaton. -/
def writes (g : Fsm) : List (Nat × (Nat × Nat)) := (List.range g.size).flatMap fun fr => g.letters.set.flatMap fun e =>
  (elems (g.destinations fr e.rep)).map fun d => (fr * g.letters.size + (letterTable g.letters).getD e.rep 0, (d % 2 ^ 32, g.output fr d % 2 ^ 32))

theorem slowCompile_vec (f : Fsm) (d : Nat) : (slowCompile f d).vec =
    (writes ((f.withDistance d).sparse true)).foldl (fun v w => v.modify w.1 (· ++ [w.2]))
      (List.replicate (((f.withDistance d).sparse true).size * ((f.withDistance d).sparse true).letters.size) []) := by
  unfold writes
  rw [← foldl_flatMap']
  unfold slowCompile
  simp only
  generalize (f.withDistance d).sparse true = g
  congr 1
  funext v fr
  exact foldl_foldl (fun e : PClass => elems (g.destinations fr e.rep)) (fun v (w : Nat × (Nat × Nat)) => v.modify w.1 (· ++ [w.2]))
    (fun e d => (fr * g.letters.size + (letterTable g.letters).getD e.rep 0, (d % 2 ^ 32, g.output fr d % 2 ^ 32))) g.letters.set v

/-- The constructor. -/
theorem slowCompile_spec {f : Fsm} {d : Nat} (h : (f.withDistance d).WF) (hs : (f.withDistance d).size ≤ 2 ^ 32) :
    (slowCompile f d).statesCount = (f.withDistance d).size ∧ (slowCompile f d).start = (f.withDistance d).initial ∧
    (∀ q < (f.withDistance d).size, ∀ c < 264, ∃ ts, (slowCompile f d).nextStates q c = some ts ∧
      ∀ tr, tr ∈ ts ↔ tr.1 ∈ (f.withDistance d).dst q c ∧ tr.2 = (f.withDistance d).output q tr.1 % 2 ^ 32) ∧
    ∀ q < (f.withDistance d).size, (slowCompile f d).isFinal q =
      some ((((f.withDistance d).tags q).getD 0 ||| if (f.withDistance d).isFinal q then 1 else 0) % 256 != 0) := by
  obtain ⟨g, hg⟩ : ∃ g, g = f.withDistance d := ⟨_, rfl⟩
  refine ⟨rfl, rfl, ?_, ?_⟩
  · obtain ⟨hw, hall, htr, -⟩ := Fsm.sparse_letters h true
    intro q hq c hc
    have hsome := (hall c).2 ⟨hc, fun _ => rfl⟩
    rw [Option.isSome_iff_exists] at hsome
    obtain ⟨r, hr⟩ := hsome
    obtain ⟨e, he, rfl, hm⟩ := (hw.inv_iff c r).1 hr
    have hdst : ∀ (q' : Nat) (e' : PClass) (c' : Nat), e' ∈ ((f.withDistance d).sparse true).letters.set → c' ∈ e'.members →
        ((f.withDistance d).sparse true).destinations q' e'.rep = (f.withDistance d).dst q' c' := by
      intro q' e' c' he' hm'
      have h1 := htr c' e'.rep (hw.inv_of_mem he' hm') q'
      have h2 : ((f.withDistance d).sparse true).translate e'.rep = e'.rep := by
        unfold Fsm.translate
        split
        · rfl
        · unfold Partition.representative
          rw [hw.inv_of_mem he' (hw.rep_mem e' he')]; rfl
      unfold Fsm.destinations
      rw [h2]
      show ((f.withDistance d).tr q' e'.rep).getD ∅ = ((f.withDistance d).tr q' c').getD ∅
      rw [h1]
    have hletter : ∀ (e' : PClass) (c' : Nat), e' ∈ ((f.withDistance d).sparse true).letters.set → c' ∈ e'.members →
        (letterTable ((f.withDistance d).sparse true).letters)[c']? = some e'.idx := by
      intro e' c' he' hm'
      exact letterTable_get hw he' hm' ((hall c').1 (by rw [hw.inv_of_mem he' hm']; rfl)).1
    have hidx := hw.idx_lt e he
    have hlt : q * ((f.withDistance d).sparse true).letters.size + e.idx <
        ((f.withDistance d).sparse true).size * ((f.withDistance d).sparse true).letters.size := by
      have : (q + 1) * ((f.withDistance d).sparse true).letters.size ≤ ((f.withDistance d).sparse true).size * ((f.withDistance d).sparse true).letters.size :=
        Nat.mul_le_mul_right _ hq
      rw [Nat.succ_mul] at this
      unfold Partition.size at *; omega
    refine ⟨[] ++ ((writes ((f.withDistance d).sparse true)).filter fun w => w.1 = q * ((f.withDistance d).sparse true).letters.size + e.idx).map Prod.snd,
      ?_, fun tr => ?_⟩
    · unfold Table.nextStates
      rw [show (slowCompile f d).letters = letterTable ((f.withDistance d).sparse true).letters from rfl, hletter e c he hm, Option.bind_some, slowCompile_vec,
        show (slowCompile f d).lettersCount = ((f.withDistance d).sparse true).letters.size from rfl, foldl_modify, List.getElem?_replicate, if_pos hlt]
      rfl
    · rw [List.nil_append, List.mem_map]
      constructor
      · rintro ⟨⟨i, x⟩, hx, rfl⟩
        rw [List.mem_filter, decide_eq_true_iff] at hx
        obtain ⟨hx, hi⟩ := hx
        unfold writes at hx
        rw [List.mem_flatMap] at hx
        obtain ⟨fr, hfr, hx⟩ := hx
        rw [List.mem_flatMap] at hx
        obtain ⟨e', he', hx⟩ := hx
        rw [List.mem_map] at hx
        obtain ⟨y, hy, hx⟩ := hx
        have hm' := hw.rep_mem e' he'
        injection hx with h1 h2
        have hl : (letterTable ((f.withDistance d).sparse true).letters).getD e'.rep 0 = e'.idx := by
          rw [List.getD_eq_getElem?_getD, hletter e' _ he' hm']; rfl
        simp only at hi
        rw [hl] at h1
        have hidx' := hw.idx_lt e' he'
        have heq : fr * ((f.withDistance d).sparse true).letters.size + e'.idx = q * ((f.withDistance d).sparse true).letters.size + e.idx := by rw [h1, hi]
        have hpos : 0 < ((f.withDistance d).sparse true).letters.size := by unfold Partition.size; omega
        have h3 : e'.idx = e.idx := by
          have := congrArg (· % ((f.withDistance d).sparse true).letters.size) heq
          simp only [Nat.mul_add_mod_of_lt (show e'.idx < ((f.withDistance d).sparse true).letters.size from hidx'),
            Nat.mul_add_mod_of_lt (show e.idx < ((f.withDistance d).sparse true).letters.size from hidx)] at this
          exact this
        have h4 : fr = q := by
          rw [h3] at heq
          exact Nat.eq_of_mul_eq_mul_right hpos (Nat.add_right_cancel heq)
        have h5 : e' = e := List.inj_on_of_nodup_map hw.idx_nodup he' he h3
        subst h4 h5
        rw [mem_elems, hdst fr e' c he' hm] at hy
        have hds := (h.dst_lt hy).2.2
        rw [← h2, Nat.mod_eq_of_lt (by omega)]
        exact ⟨hy, rfl⟩
      · rintro ⟨hp, ho⟩
        have hds := (h.dst_lt hp).2.2
        refine ⟨(q * ((f.withDistance d).sparse true).letters.size + e.idx, tr), ?_, rfl⟩
        rw [List.mem_filter]
        refine ⟨?_, by simp⟩
        unfold writes
        rw [List.mem_flatMap]
        refine ⟨q, List.mem_range.2 hq, ?_⟩
        rw [List.mem_flatMap]
        refine ⟨e, he, ?_⟩
        rw [List.mem_map]
        refine ⟨tr.1, by rw [mem_elems, hdst q e c he hm]; exact hp, ?_⟩
        have e1 : (tr.1 % 2 ^ 32, ((f.withDistance d).sparse true).output q tr.1 % 2 ^ 32) = tr := by
          rw [Nat.mod_eq_of_lt (by omega)]
          exact Prod.ext rfl ho.symm
        rw [List.getD_eq_getElem?_getD, hletter e _ he (hw.rep_mem e he), e1]; rfl
  · intro q hq
    show ((List.range (f.withDistance d).size).map _)[q]? = _
    rw [List.getElem?_map, List.getElem?_range hq]
    rfl

/-- What a compiled scanner is. -/
theorem slowCompile_repr {f : Fsm} {d : Nat} (h : (f.withDistance d).WF) (hs : (f.withDistance d).size ≤ 2 ^ 32) (hr : (f.withDistance d).Raw)
    (ht : (f.withDistance d).TagsIn (· % 256 = 0)) (ho : ∀ q p, (f.withDistance d).output q p < 2 ^ 32) :
    ∃ J F, TRepr (slowCompile f d) (f.withDistance d).size J F ∧ Edges (f.withDistance d).size J (f.withDistance d).Edge (f.withDistance d).output ∧
      (slowCompile f d).start = (f.withDistance d).initial ∧ ∀ q < (f.withDistance d).size, F q = true ↔ q ∈ (f.withDistance d).finals := by
  obtain ⟨h1, h2, h3, h4⟩ := slowCompile_spec h hs
  have hedge : ∀ q c p, (f.withDistance d).Edge q c p ↔ p ∈ (f.withDistance d).dst q c := by
    intro q c p
    rw [Fsm.edge_iff, h.key_eq_repOr]
    have hr' : (f.withDistance d).letters = Partition.empty := hr
    have : (f.withDistance d).letters.repOr c = c := by rw [hr']; rfl
    rw [this]
  refine ⟨fun q c => ((slowCompile f d).nextStates q c).getD [], fun q => ((slowCompile f d).isFinal q).getD false, ⟨h1, by rw [h2]; exact h.init_lt, ?_, ?_, ?_⟩, ⟨?_, ?_⟩, h2, ?_⟩
  · intro q hq c hc
    obtain ⟨ts, e, -⟩ := h3 q hq c hc
    rw [e]; rfl
  · intro q hq c hc tr htr
    obtain ⟨ts, e, hm⟩ := h3 q hq c hc
    rw [e, Option.getD_some, hm] at htr
    exact (h.dst_lt htr.1).2.2
  · intro q hq
    rw [h4 q hq]; rfl
  · intro q hq c hc tr
    obtain ⟨ts, e, hm⟩ := h3 q hq c hc
    simp only [e, Option.getD_some, hm, hedge]
    rw [Nat.mod_eq_of_lt (ho q tr.1)]
  · intro q c p he
    exact (h.dst_lt ((hedge q c p).1 he)).1
  · intro q hq
    have h0 : ((f.withDistance d).tags q).getD 0 % 256 = 0 := by
      cases hq : (f.withDistance d).tags q with
      | none => rfl
      | some t => exact ht q t hq
    simp only [h4 q hq, Option.getD_some]
    unfold Fsm.isFinal
    by_cases hf : q ∈ (f.withDistance d).finals
    · simp only [hf, iff_true, decide_true, if_true]
      rw [bne_iff_ne]
      intro hz
      have := Nat.or_mod_two_pow (a := ((f.withDistance d).tags q).getD 0) (b := 1) (n := 8)
      norm_num at this
      rw [this, h0] at hz
      simp at hz
    · simp [hf, h0]

end Capture
end Pire
