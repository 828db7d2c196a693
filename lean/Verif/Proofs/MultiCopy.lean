import Verif.Model.MultiCopy
import Verif.Proofs.ScannerSem

/-!
# `DeepCopy` represents the same table
-/

namespace Pire
open Spec
namespace Multi

variable {P P' : Policy} {s : Multi} {T : Tbl}

theorem _root_.Pire.Tbl.Wf.L_le (h : T.Wf) : T.L ≤ 264 := by
  have hsub : Finset.range T.L ⊆ (Finset.range 264).image T.cls := by
    intro k hk
    obtain ⟨c, hc, rfl⟩ := h.onto k (Finset.mem_range.1 hk)
    exact Finset.mem_image_of_mem _ (Finset.mem_range.2 hc.1)
  have := (Finset.card_le_card hsub).trans Finset.card_image_le
  simpa using this

/-- The value written to a cell by `DeepCopy`. -/
def copyVal (P P' : Policy) (s d : Multi) : Cell → Nat
  | .letter c => s.get P' (.letter c) + 2 ^ 64 - P'.headerSize + P.headerSize
  | .final i => s.get P' (.final i)
  | .finalIndex i => s.get P' (.finalIndex i)
  | .mask row i _ => s.get P' (.mask row i 0)
  | .flags row => s.get P' (.flags row)
  | .slot row k => P.reloc.diff (d.indexToState P row)
      (d.indexToState P (s.stateIndex P' (P'.reloc.go (s.indexToState P' row) (s.get P' (.slot row (k - P.headerSize + P'.headerSize))))))

theorem copyCells_consistent (d : Multi) : Consistent P d.m (copyVal P P' s d) (copyCells P P' s d) := by
  intro x hx
  unfold copyCells at hx
  rcases List.mem_append.1 hx with hx | hx
  · rcases List.mem_append.1 hx with hx | hx
    · rcases List.mem_append.1 hx with hx | hx
      · obtain ⟨c, hc, rfl⟩ := List.mem_map.1 hx
        exact ⟨List.mem_range.1 hc, rfl⟩
      · obtain ⟨c, hc, rfl⟩ := List.mem_map.1 hx
        exact ⟨List.mem_range.1 hc, rfl⟩
    · obtain ⟨c, hc, rfl⟩ := List.mem_map.1 hx
      exact ⟨List.mem_range.1 hc, rfl⟩
  · obtain ⟨st, hst, hx⟩ := List.mem_flatMap.1 hx
    have hst := List.mem_range.1 hst
    rcases List.mem_append.1 hx with hx | hx
    · unfold headerCells at hx
      rcases List.mem_cons.1 hx with rfl | hx
      · exact ⟨hst, rfl⟩
      · obtain ⟨i, hi, hx⟩ := List.mem_flatMap.1 hx
        obtain ⟨j, hj, rfl⟩ := List.mem_map.1 hx
        exact ⟨⟨hst, List.mem_range.1 hi, List.mem_range.1 hj⟩, rfl⟩
    · obtain ⟨l, hl, rfl⟩ := List.mem_map.1 hx
      have hl := List.mem_range.1 hl
      have := rowSize_ge P d.m
      refine ⟨⟨hst, by omega, by omega⟩, ?_⟩
      simp only [copyVal, Nat.add_sub_cancel]

theorem mem_copyCells (d : Multi) : ∀ c : Cell, (match c with
    | .letter c => c < 264
    | .final i => i < d.m.finalTableSize
    | .finalIndex i => i < d.m.statesCount
    | .mask row i j => row < d.m.statesCount ∧ i < P.masks ∧ j < 4
    | .flags row => row < d.m.statesCount
    | .slot row k => row < d.m.statesCount ∧ ∃ l < d.m.lettersCount, k = l + P.headerSize) → ∃ v, (c, v) ∈ copyCells P P' s d := by
  intro c hc
  unfold copyCells
  cases c with
  | letter c =>
    exact ⟨_, List.mem_append_left _ (List.mem_append_left _ (List.mem_append_left _ (List.mem_map.2 ⟨c, List.mem_range.2 hc, rfl⟩)))⟩
  | final c =>
    exact ⟨_, List.mem_append_left _ (List.mem_append_left _ (List.mem_append_right _ (List.mem_map.2 ⟨c, List.mem_range.2 hc, rfl⟩)))⟩
  | finalIndex c =>
    exact ⟨_, List.mem_append_left _ (List.mem_append_right _ (List.mem_map.2 ⟨c, List.mem_range.2 hc, rfl⟩))⟩
  | mask row i j =>
    obtain ⟨h1, h2, h3⟩ := hc
    exact ⟨_, List.mem_append_right _ (List.mem_flatMap.2 ⟨row, List.mem_range.2 h1, List.mem_append_left _ (List.mem_cons_of_mem _
      (List.mem_flatMap.2 ⟨i, List.mem_range.2 h2, List.mem_map.2 ⟨j, List.mem_range.2 h3, rfl⟩⟩))⟩)⟩
  | flags row =>
    exact ⟨_, List.mem_append_right _ (List.mem_flatMap.2 ⟨row, List.mem_range.2 hc, List.mem_append_left _ (List.mem_cons_self ..)⟩)⟩
  | slot row k =>
    obtain ⟨h1, l, h2, rfl⟩ := hc
    exact ⟨_, List.mem_append_right _ (List.mem_flatMap.2 ⟨row, List.mem_range.2 h1, List.mem_append_right _
      (List.mem_map.2 ⟨l, List.mem_range.2 h2, rfl⟩)⟩)⟩

theorem get_lt (s : Multi) (c : Cell) : s.get P c < 256 ^ len P c := readLE_lt' ..

theorem deepCopy_eq (P P' : Policy) (base : Nat) (s : Multi) : ∃ d : Multi, deepCopy P P' base s = writes P d (copyCells P P' s d) ∧
    d.base = base ∧ d.empty = false ∧ d.m.statesCount = s.m.statesCount ∧ d.m.lettersCount = s.m.lettersCount ∧
    d.m.regexpsCount = s.m.regexpsCount ∧ d.m.finalTableSize = s.m.finalTableSize ∧
    d.m.relocationSignature = P.reloc.signature ∧ d.m.shortcuttingSignature = P.shortSignature ∧
    d.m.initial = d.indexToState P (s.stateIndex P' s.m.initial) := by
  refine ⟨_, rfl, rfl, rfl, rfl, rfl, rfl, rfl, rfl, rfl, rfl⟩

theorem deepCopy_m (P P' : Policy) (base : Nat) (s : Multi) :
    (deepCopy P P' base s).m.statesCount = s.m.statesCount ∧ (deepCopy P P' base s).m.lettersCount = s.m.lettersCount ∧
    (deepCopy P P' base s).m.finalTableSize = s.m.finalTableSize ∧ (deepCopy P P' base s).base = base ∧
    (deepCopy P P' base s).empty = false ∧ (deepCopy P P' base s).m.relocationSignature = P.reloc.signature ∧
    (deepCopy P P' base s).m.shortcuttingSignature = P.shortSignature ∧
    (deepCopy P P' base s).m.regexpsCount = s.m.regexpsCount := by
  obtain ⟨d, h1, h2, h3, h4, h5, h6, h7, h8, h9, h10⟩ := deepCopy_eq P P' base s
  rw [h1, writes_m, writes_base, writes_empty]
  exact ⟨h4, h5, h7, h2, h3, h8, h9, h6⟩

theorem deepCopy_repr {base : Nat} (hP : P.Real) (hP' : P'.Real) (hm : P.masks = P'.masks) (h : Repr P' s T)
    (hf : Fits P base (deepCopy P P' base s).m) : Repr P (deepCopy P P' base s) T := by
  obtain ⟨d, h1, h2, h3, h4, h5, h6, h7, h8, h9, h10⟩ := deepCopy_eq P P' base s
  have hcons := copyCells_consistent (P := P) (P' := P') (s := s) d
  have hmem := mem_copyCells (P := P) (P' := P') (s := s) d
  rw [h1] at hf ⊢
  rw [writes_m] at hf
  have hfd : Fits P d.base d.m := by rw [h2]; exact hf
  have hval : ∀ {c : Cell}, (∃ v, (c, v) ∈ copyCells P P' s d) → (writes P d (copyCells P P' s d)).get P c =
      copyVal P P' s d c % 256 ^ len P c := fun hc => writes_get_val hcons hc
  have hidx : ∀ q, (writes P d (copyCells P P' s d)).indexToState P q = d.indexToState P q :=
    fun q => indexToState_congr (rest_writes d _) q
  have hn : d.m.statesCount = T.n := h4.trans h.states
  have hl : d.m.lettersCount = T.L := h5.trans h.letters
  have hL := h.wf.L_le
  have hhs := headerSize_le hP
  have hhs' := headerSize_le hP'
  have hfinal : ∀ i < s.m.finalTableSize, (writes P d (copyCells P P' s d)).get P (.final i) = s.get P' (.final i) := by
    intro i hi
    rw [hval (hmem _ (by rw [h7]; exact hi))]
    exact Nat.mod_eq_of_lt (get_lt (P := P') s (.final i))
  have hfinalIndex : ∀ i < T.n, (writes P d (copyCells P P' s d)).get P (.finalIndex i) = s.get P' (.finalIndex i) := by
    intro i hi
    rw [hval (hmem _ (by rw [hn]; exact hi))]
    exact Nat.mod_eq_of_lt (get_lt (P := P') s (.finalIndex i))
  refine ⟨⟨h.wf, ?_, ?_, ?_, ?_, ?_, ?_, ?_, ?_, ?_⟩, ?_⟩
  · rw [writes_base, writes_m]; exact hfd
  · rw [writes_m]; exact hn
  · rw [writes_m]; exact hl
  · rw [writes_m]; exact h6.trans h.regexps
  · rw [writes_m, hidx, h10, h.initial, stateIndex_indexToState]
  · intro c hc
    rw [hval (hmem _ hc.1)]
    have hk := h.wf.cls_lt c hc
    show (s.get P' (.letter c) + 2 ^ 64 - P'.headerSize + P.headerSize) % 256 ^ 2 = _
    rw [h.letter c hc]
    omega
  · intro q hq k hk
    have e : (writes P d (copyCells P P' s d)).get P (.slot q (P.headerSize + k)) =
        copyVal P P' s d (.slot q (P.headerSize + k)) % 256 ^ P.reloc.tsz :=
      hval (hmem _ ⟨by rw [hn]; exact hq, k, by rw [hl]; exact hk, by omega⟩)
    rw [e, hidx, hidx]
    have hgo : P'.reloc.go (s.indexToState P' q) (s.get P' (.slot q (P.headerSize + k - P.headerSize + P'.headerSize))) =
        s.indexToState P' (T.δ q k) := by
      rw [show P.headerSize + k - P.headerSize + P'.headerSize = P'.headerSize + k by omega, h.jump q hq k hk]
      exact go_diff h.fits (by rw [h.states]; exact hq) (by rw [h.states]; exact h.wf.δ_lt q hq k hk)
    show P.reloc.diff (d.indexToState P q) (d.indexToState P (s.stateIndex P' (P'.reloc.go (s.indexToState P' q)
      (s.get P' (.slot q (P.headerSize + k - P.headerSize + P'.headerSize)))))) % 256 ^ P.reloc.tsz = _
    rw [hgo, stateIndex_indexToState]
    exact Nat.mod_eq_of_lt (diff_lt hfd (by rw [hn]; exact h.wf.δ_lt q hq k hk))
  · intro q hq
    rw [hval (hmem _ (by rw [hn]; exact hq))]
    exact (Nat.mod_eq_of_lt (get_lt (P := P') s (.flags q))).trans (h.flags q hq)
  · intro q hq
    have hF := h.finals q hq
    have hb := hF.bound
    refine ⟨?_, ?_, ?_⟩
    · rw [hfinalIndex q hq, writes_m, h7]; exact hb
    · intro i hi
      rw [hfinalIndex q hq, hfinal _ (by omega)]
      exact hF.entry i hi
    · rw [hfinalIndex q hq, hfinal _ (by omega)]
      exact hF.stop
  · intro hne q hq
    have h2 : P.masks = 2 := by rcases hP with h0 | h0; exact absurd h0 hne; exact h0
    have hmask : ∀ i < 2, ∀ j < 4, (writes P d (copyCells P P' s d)).get P (.mask q i j) = s.get P' (.mask q i 0) := by
      intro i hi j hj
      rw [hval (hmem (.mask q i j) ⟨by rw [hn]; exact hq, by omega, hj⟩)]
      exact Nat.mod_eq_of_lt (get_lt (P := P') s (.mask q i 0))
    have hv : ∀ i < 2, ∀ v, MaskVal P' s q i v → MaskVal P (writes P d (copyCells P P' s d)) q i v := by
      intro i hi v hx j hj
      rw [hmask i hi j hj]; exact hx 0 (by omega)
    rcases h.masks (by omega) q hq with ⟨hx, hstay⟩ | hx | ⟨a, b, ha, hb, hx, hy, hstay⟩
    · exact .inl ⟨hv 0 (by omega) _ hx, hstay⟩
    · exact .inr (.inl (hv 0 (by omega) _ hx))
    · exact .inr (.inr ⟨a, b, ha, hb, hv 0 (by omega) _ hx, hv 1 (by omega) _ hy, hstay⟩)

end Multi
end Pire
