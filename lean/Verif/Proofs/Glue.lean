import Verif.Model.Glue
import Verif.Proofs.Lookup
import Verif.Proofs.ScannerSem
import Verif.Proofs.MultiCopy
import Mathlib.Data.List.GetD

/-!
# Gluing two scanners
-/

namespace Pire
open Spec

theorem Spec.hits_append (As Bs : List (Language Nat)) (w : List Nat) :
    hits (As ++ Bs) w = hits As w ++ (hits Bs w).map (· + As.length) := by
  classical
  unfold hits
  rw [List.length_append, List.range_add, List.filter_append, List.filter_map]
  congr 1
  · apply List.filter_congr
    intro i hi
    rw [List.mem_range] at hi
    rw [List.getD_append _ _ _ _ hi]
  · have : (fun x => As.length + x) = fun x => x + As.length := by funext x; omega
    rw [this]
    congr 1
    apply List.filter_congr
    intro i hi
    simp only [Function.comp_apply]
    rw [List.getD_append_right _ _ _ _ (by omega), Nat.add_sub_cancel]

theorem Spec.hits_lt {Ls : List (Language Nat)} {w : List Nat} {x : Nat} (h : x ∈ hits Ls w) : x < Ls.length := by
  classical
  unfold hits at h
  exact List.mem_range.1 (List.mem_filter.1 h).1

theorem Spec.hits_length_le (Ls : List (Language Nat)) (w : List Nat) : (hits Ls w).length ≤ Ls.length := by
  classical
  unfold hits
  exact (List.length_filter_le _ _).trans (by simp)

namespace Multi
variable {P : Policy} {a b : Multi}

/-! ### The letters -/

theorem glueLetters_list : ((List.range MaxChar).filter (· ≠ Epsilon)).Nodup ∧
    ∀ c, c ∈ (List.range MaxChar).filter (· ≠ Epsilon) ↔ IsLetter c := by
  refine ⟨List.nodup_range.filter _, fun c => ?_⟩
  rw [List.mem_filter, List.mem_range]
  unfold IsLetter
  simp

theorem glueLetters_wf (P : Policy) (a b : Multi) : (glueLetters P a b).WF := by
  unfold glueLetters
  exact Partition.WF.foldl_append Partition.WF.empty glueLetters_list.1 fun _ _ => rfl

theorem glueLetters_all (P : Policy) (a b : Multi) : AllLetters (glueLetters P a b) := by
  intro c
  unfold glueLetters
  rw [Partition.inv_foldl_isSome, glueLetters_list.2]
  simp [Partition.empty]

theorem glueLetters_classifies (P : Policy) (a b : Multi) : (glueLetters P a b).Classifies (lettersEq P a b) := by
  unfold glueLetters
  apply Partition.Classifies.foldl_append Partition.WF.empty _ glueLetters_list.1 fun _ _ => rfl
  · intro c; simp [lettersEq]
  · intro c d
    unfold lettersEq
    simp only [Bool.and_eq_true, beq_iff_eq]
    rintro ⟨h1, h2⟩
    exact ⟨h1.symm, h2.symm⟩
  · constructor
    · intro c r h; cases h
    · intro e he; cases he

theorem glueTask_letter {e : PClass} (he : e ∈ (glueLetters P a b).set) {c : Nat} (hc : c ∈ e.members) : IsLetter c :=
  (glueLetters_all P a b c).1 (by rw [(glueLetters_wf P a b).inv_of_mem he hc]; rfl)

/-- Letters of a class go the same way. -/
theorem glue_next_class {e : PClass} (he : e ∈ (glueLetters P a b).set) {c : Nat} (hc : c ∈ e.members) (s : Nat × Nat) :
    (glueTask P a b).next s e.rep = (a.next P s.1 c, b.next P s.2 c) := by
  have := (glueLetters_classifies P a b).1 c e.rep ((glueLetters_wf P a b).inv_of_mem he hc)
  unfold lettersEq at this
  simp only [Bool.and_eq_true, beq_iff_eq] at this
  show (a.next P s.1 e.rep, b.next P s.2 e.rep) = _
  unfold next
  rw [this.1, this.2]

/-- The pair of states after a word. -/
def pairAfter (P : Policy) (a b : Multi) (w : List Nat) : Nat × Nat :=
  ((a.scn P).after (a.scn P).initial w, (b.scn P).after (b.scn P).initial w)

theorem pairAfter_snoc (w : List Nat) (c : Nat) :
    pairAfter P a b (w ++ [c]) = (a.next P (pairAfter P a b w).1 c, b.next P (pairAfter P a b w).2 c) := by
  unfold pairAfter Scn.after
  rw [List.foldl_append, List.foldl_append]
  rfl

theorem glue_reach_word {s : Nat × Nat} (h : (glueTask P a b).Reach s) : ∃ w, IsWord w ∧ s = pairAfter P a b w := by
  induction h with
  | init => exact ⟨[], fun _ h => (List.not_mem_nil h).elim, rfl⟩
  | @step s e _ _ he ih =>
    obtain ⟨w, hw, rfl⟩ := ih
    have hm := (glueLetters_wf P a b).rep_mem e he
    refine ⟨w ++ [e.rep], ?_, ?_⟩
    · intro c hc
      rcases List.mem_append.1 hc with hc | hc
      · exact hw c hc
      · rw [List.mem_singleton.1 hc]; exact glueTask_letter he hm
    · rw [pairAfter_snoc, glue_next_class he hm]

/-! ### The table -/

/-- The table of the product. -/
def glueTbl (P : Policy) (a b : Multi) (states : List (Nat × Nat)) : Tbl where
  n := states.length
  L := (glueLetters P a b).size
  cls := fun c => ((glueLetters P a b).index c).getD 0
  δ := fun i k => states.idxOf ((glueTask P a b).next (states.getD i (0, 0)) ((glueTask P a b).invLetters k))
  flag := fun i => glueFlags P a b (states.getD i (0, 0))
  acc := fun i => a.acceptedRegexps P (states.getD i (0, 0)).1 ++
    (b.acceptedRegexps P (states.getD i (0, 0)).2).map (· + a.regexpsCount)
  q0 := 0
  regexps := a.regexpsCount + b.regexpsCount

section
variable {states : List (Nat × Nat)} {conns : List (Nat × Nat × Nat)} {max : Nat}

theorem getD_of_getElem? {α : Type} {l : List α} {i : Nat} {x d : α} (h : l[i]? = some x) : l.getD i d = x := by
  rw [List.getD_eq_getElem?_getD, h]; rfl

theorem glueTbl_cls (e : PClass) (he : e ∈ (glueLetters P a b).set) (c : Nat) (hc : c ∈ e.members) :
    (glueTbl P a b states).cls c = e.idx := by
  show ((glueLetters P a b).index c).getD 0 = _
  rw [(glueLetters_wf P a b).index_eq he hc]; rfl

theorem glueTbl_δ (hr : (glueTask P a b).RunSpec max states conns) {i : Nat} {s : Nat × Nat} (hs : states[i]? = some s)
    {e : PClass} (he : e ∈ (glueLetters P a b).set) :
    states[(glueTbl P a b states).δ i e.idx]? = some ((glueTask P a b).next s e.rep) := by
  have hreach : (glueTask P a b).Reach s := (hr.mem s).1 (List.mem_of_getElem? hs)
  have hmem : (glueTask P a b).next s e.rep ∈ states := (hr.mem _).2 (.step hreach rfl he)
  show states[states.idxOf ((glueTask P a b).next (states.getD i (0, 0)) ((glueTask P a b).invLetters e.idx))]? = _
  rw [DTask.invLetters_eq (t := glueTask P a b) (glueLetters_wf P a b) he, getD_of_getElem? hs]
  rw [List.getElem?_eq_getElem (List.idxOf_lt_length_of_mem hmem), List.getElem_idxOf]

theorem exists_class_of_letter {c : Nat} (hc : IsLetter c) : ∃ e ∈ (glueLetters P a b).set, c ∈ e.members := by
  obtain ⟨r, hr⟩ := Option.isSome_iff_exists.1 ((glueLetters_all P a b c).2 hc)
  obtain ⟨e, he, -, hce⟩ := ((glueLetters_wf P a b).inv_iff _ _).1 hr
  exact ⟨e, he, hce⟩

theorem glueTbl_step (hr : (glueTask P a b).RunSpec max states conns) {i : Nat} {s : Nat × Nat} (hs : states[i]? = some s)
    {c : Nat} (hc : IsLetter c) :
    states[(glueTbl P a b states).step i c]? = some (a.next P s.1 c, b.next P s.2 c) := by
  obtain ⟨e, he, hce⟩ := exists_class_of_letter (P := P) (a := a) (b := b) hc
  unfold Tbl.step
  rw [glueTbl_cls e he c hce, glueTbl_δ hr hs he, glue_next_class he hce]

theorem glueTbl_after (hr : (glueTask P a b).RunSpec max states conns) {w : List Nat} (hw : IsWord w) :
    states[(glueTbl P a b states).after 0 w]? = some (pairAfter P a b w) := by
  induction w using List.reverseRecOn with
  | nil => exact hr.zero
  | append_singleton w c ih =>
    have := ih fun x hx => hw x (by simp [hx])
    unfold Tbl.after at this ⊢
    rw [List.foldl_append]
    rw [pairAfter_snoc]
    exact glueTbl_step hr this (hw c (by simp))

theorem glueTbl_wf (hr : (glueTask P a b).RunSpec max states conns) {As Bs : List (Language Nat)}
    (ha : Recognizes P a As) (hb : Recognizes P b Bs) (hsmall : As.length + Bs.length < 2 ^ 64 - 1) : (glueTbl P a b states).Wf := by
  have hw := glueLetters_wf P a b
  refine ⟨?_, ?_, ?_, ?_, ?_⟩
  · exact (List.getElem?_eq_some_iff.1 hr.zero).1
  · intro q hq k hk
    obtain ⟨e, he, rfl⟩ := DTask.exists_idx hw hk
    exact (List.getElem?_eq_some_iff.1 (glueTbl_δ hr (List.getElem?_eq_getElem hq) he)).1
  · intro c hc
    obtain ⟨e, he, hce⟩ := exists_class_of_letter (P := P) (a := a) (b := b) hc
    rw [glueTbl_cls e he c hce]
    exact hw.idx_lt e he
  · intro k hk
    obtain ⟨e, he, rfl⟩ := DTask.exists_idx hw hk
    have hm := hw.rep_mem e he
    exact ⟨e.rep, glueTask_letter he hm, glueTbl_cls e he _ hm⟩
  · intro q hq x hx
    have hs := List.getElem?_eq_getElem hq
    obtain ⟨w, hww, hsw⟩ := glue_reach_word ((hr.mem _).1 (List.mem_of_getElem? hs))
    have e := getD_of_getElem? (d := (0, 0)) hs
    simp only [glueTbl] at hx
    rw [e, hsw] at hx
    simp only [pairAfter] at hx
    rw [ha.accepted w hww, hb.accepted w hww, ha.count] at hx
    unfold EndIdx
    rcases List.mem_append.1 hx with hx | hx
    · have := hits_lt hx; omega
    · obtain ⟨y, hy, rfl⟩ := List.mem_map.1 hx
      have := hits_lt hy; omega

theorem glueFlags_bits (st : Nat × Nat) :
    (glueFlags P a b st &&& 1 ≠ 0 ↔ (a.scn P).final st.1 = true ∨ (b.scn P).final st.2 = true) ∧
    (glueFlags P a b st &&& 2 ≠ 0 ↔ (a.scn P).dead st.1 = true ∧ (b.scn P).dead st.2 = true) ∧ glueFlags P a b st < 4 := by
  unfold glueFlags
  rw [← Bool.or_eq_true, ← Bool.and_eq_true]
  cases (a.scn P).final st.1 || (b.scn P).final st.2 <;> cases (a.scn P).dead st.1 && (b.scn P).dead st.2 <;> decide

theorem glueTbl_sem (hr : (glueTask P a b).RunSpec max states conns) {As Bs : List (Language Nat)}
    (ha : Recognizes P a As) (hb : Recognizes P b Bs) : Sem (glueTbl P a b states) (As ++ Bs) := by
  have key : ∀ w, IsWord w → states.getD ((glueTbl P a b states).after 0 w) (0, 0) = pairAfter P a b w :=
    fun w hw => getD_of_getElem? (glueTbl_after hr hw)
  refine ⟨?_, fun w hw => ?_, fun w hw => ?_, fun w hw => ?_⟩
  · show a.regexpsCount + b.regexpsCount = _
    rw [ha.count, hb.count, List.length_append]
  · show a.acceptedRegexps P (states.getD ((glueTbl P a b states).after 0 w) (0, 0)).1 ++
      (b.acceptedRegexps P (states.getD ((glueTbl P a b states).after 0 w) (0, 0)).2).map (· + a.regexpsCount) = _
    rw [key w hw, hits_append, ha.count]
    simp only [pairAfter]
    rw [ha.accepted w hw, hb.accepted w hw]
  · show glueFlags P a b (states.getD ((glueTbl P a b states).after 0 w) (0, 0)) &&& 1 ≠ 0 ↔ _
    rw [key w hw, (glueFlags_bits _).1]
    simp only [pairAfter]
    rw [ha.final w hw, hb.final w hw]
    simp only [List.mem_append]
    constructor
    · rintro (⟨L, h1, h2⟩ | ⟨L, h1, h2⟩)
      · exact ⟨L, .inl h1, h2⟩
      · exact ⟨L, .inr h1, h2⟩
    · rintro ⟨L, h1 | h1, h2⟩
      · exact .inl ⟨L, h1, h2⟩
      · exact .inr ⟨L, h1, h2⟩
  · show glueFlags P a b (states.getD ((glueTbl P a b states).after 0 w) (0, 0)) &&& 2 ≠ 0 ↔ _
    rw [key w hw, (glueFlags_bits _).2.1]
    simp only [pairAfter]
    rw [ha.dead w hw, hb.dead w hw]
    simp only [List.mem_append]
    constructor
    · rintro ⟨h1, h2⟩ v hv ⟨L, hL | hL, hx⟩
      · exact h1 v hv ⟨L, hL, hx⟩
      · exact h2 v hv ⟨L, hL, hx⟩
    · intro h
      exact ⟨fun v hv ⟨L, hL, hx⟩ => h v hv ⟨L, .inl hL, hx⟩, fun v hv ⟨L, hL, hx⟩ => h v hv ⟨L, .inr hL, hx⟩⟩

/-! ### The memory -/

theorem shiftOut_eq (val : Cell → Nat) (l : List Nat) (sh : Nat) (s : Multi) (w : Nat) (hb : w + l.length ≤ s.m.finalTableSize)
    (hv : ∀ i (h : i < l.length), val (.final (w + i)) = l[i] + sh) :
    ∃ W, shiftOut P l sh (s, w) = (writes P s W, w + l.length) ∧ Consistent P s.m val W ∧ (∀ x ∈ W, ∃ j, x.1 = .final j) ∧
      ∀ i < l.length, ∃ v, (Cell.final (w + i), v) ∈ W := by
  induction l generalizing s w with
  | nil => exact ⟨[], rfl, Consistent.nil, by simp, by simp⟩
  | cons x l ih =>
    rw [List.length_cons] at hb
    obtain ⟨W, h1, h2, h3, h4⟩ := ih (s.set P (.final w) (x + sh)) (w + 1) (by show _ ≤ s.m.finalTableSize; omega) (by
      intro i hi
      have := hv (i + 1) (by simp; omega)
      rw [List.getElem_cons_succ] at this
      rw [← this]; congr 2; omega)
    refine ⟨(.final w, x + sh) :: W, ?_, ?_, ?_, ?_⟩
    · unfold shiftOut at h1 ⊢
      rw [List.foldl_cons, h1, writes_cons, List.length_cons]
      congr 1
      omega
    · refine Consistent.cons (show w < _ by omega) ?_ h2
      have := hv 0 (by simp)
      simp only [Nat.add_zero, List.getElem_cons_zero] at this
      exact this.symm
    · intro y hy
      rcases List.mem_cons.1 hy with rfl | hy
      · exact ⟨_, rfl⟩
      · exact h3 y hy
    · intro i hi
      rw [List.length_cons] at hi
      cases i with
      | zero => exact ⟨_, List.mem_cons_self ..⟩
      | succ i =>
        obtain ⟨v, hv⟩ := h4 i (by omega)
        refine ⟨v, List.mem_cons_of_mem _ ?_⟩
        have e : w + (i + 1) = w + 1 + i := by omega
        rw [e]; exact hv

theorem zipIdx_range {α : Type} (l : List α) (d : α) : l.zipIdx = (List.range l.length).map fun i => (l.getD i d, i) := by
  apply List.ext_getElem?
  intro i
  rw [List.getElem?_zipIdx, List.getElem?_map]
  by_cases h : i < l.length
  · rw [List.getElem?_eq_getElem h, List.getElem?_range h]
    simp [List.getElem?_eq_getElem h]
  · rw [List.getElem?_eq_none (by omega), List.getElem?_eq_none (by simp; omega)]; rfl

theorem acceptStates_eq (s0 s : Multi) (hst : s.m.statesCount = states.length)
    (htab : ((glueTbl P a b states).upto states.length).length ≤ s.m.finalTableSize) :
    ∃ W, (states.zipIdx.foldl (acceptState P a b) (s, 0)).1 = writes P s W ∧
      Consistent P s.m (tblVal P s0 (glueTbl P a b states)) W ∧
      (∀ x ∈ W, (∃ q, x.1 = .finalIndex q) ∨ (∃ j, x.1 = .final j) ∨ ∃ q, x.1 = .flags q) ∧
      (∀ q < states.length, ∃ v, (Cell.finalIndex q, v) ∈ W) ∧ (∀ q < states.length, ∃ v, (Cell.flags q, v) ∈ W) ∧
      ∀ j < ((glueTbl P a b states).upto states.length).length, ∃ v, (Cell.final j, v) ∈ W := by
  rw [zipIdx_range states (0, 0), List.foldl_map]
  set T := glueTbl P a b states with hT
  suffices h : ∀ n ≤ states.length, ∃ W,
      (List.range n).foldl (fun r i => acceptState P a b r (states.getD i (0, 0), i)) (s, 0) = (writes P s W, (T.upto n).length) ∧
      Consistent P s.m (tblVal P s0 T) W ∧
      (∀ x ∈ W, (∃ q, x.1 = .finalIndex q) ∨ (∃ j, x.1 = .final j) ∨ ∃ q, x.1 = .flags q) ∧
      (∀ q < n, ∃ v, (Cell.finalIndex q, v) ∈ W) ∧ (∀ q < n, ∃ v, (Cell.flags q, v) ∈ W) ∧
      ∀ j < (T.upto n).length, ∃ v, (Cell.final j, v) ∈ W by
    obtain ⟨W, h1, h2, h3, h4, h5, h6⟩ := h _ le_rfl
    exact ⟨W, by rw [h1], h2, h3, h4, h5, h6⟩
  intro n hn
  induction n with
  | zero => exact ⟨[], rfl, Consistent.nil, by simp, by simp, by simp, by simp [Tbl.upto]⟩
  | succ n ih =>
    obtain ⟨W, h1, h2, h3, h4, h5, h6⟩ := ih (by omega)
    rw [List.range_succ, List.foldl_append, h1, List.foldl_cons, List.foldl_nil]
    unfold acceptState
    simp only
    set A := a.acceptedRegexps P (states.getD n (0, 0)).1 with hA
    set B := b.acceptedRegexps P (states.getD n (0, 0)).2 with hB
    have hac : T.acc n = A ++ B.map (· + a.regexpsCount) := rfl
    have hlen := (T.upto_prefix hn).length_le
    rw [T.upto_succ, hac] at hlen
    simp only [List.length_append, List.length_map, List.length_cons, List.length_nil] at hlen
    have hget : ∀ i (hi : i < (T.acc n ++ [EndIdx]).length),
        tblVal P s0 T (.final ((T.upto n).length + i)) = (T.acc n ++ [EndIdx])[i] := fun i hi =>
          (T.upto_get (n := states.length) (by omega) hi).2
    have hlt : (T.acc n ++ [EndIdx]).length = A.length + B.length + 1 := by rw [hac]; simp; omega
    rw [← show writes P (writes P s W) [(Cell.finalIndex n, (T.upto n).length)] =
      (writes P s W).set P (.finalIndex n) (T.upto n).length from by rw [writes_cons, writes_nil], ← writes_append]
    obtain ⟨WA, a1, a2, a3, a4⟩ := shiftOut_eq (P := P) (tblVal P s0 T) A 0
      (writes P s (W ++ [(Cell.finalIndex n, (T.upto n).length)])) (T.upto n).length (by rw [writes_m]; omega) (by
        intro i hi
        rw [hget i (by omega), List.getElem_append_left (by rw [hac]; simp; omega)]
        simp only [hac]
        rw [List.getElem_append_left hi]; rfl)
    rw [a1, ← writes_append]
    obtain ⟨WB, b1, b2, b3, b4⟩ := shiftOut_eq (P := P) (tblVal P s0 T) B a.regexpsCount
      (writes P s (W ++ [(Cell.finalIndex n, (T.upto n).length)] ++ WA)) ((T.upto n).length + A.length) (by rw [writes_m]; omega) (by
        intro i hi
        rw [Nat.add_assoc, hget (A.length + i) (by omega), List.getElem_append_left (by rw [hac]; simp; omega)]
        simp only [hac]
        rw [List.getElem_append_right (by omega)]
        simp)
    rw [b1]
    simp only
    rw [← writes_append]
    rw [writes_m] at a2 b2
    have e0 := hget (A.length + B.length) (by omega)
    rw [List.getElem_append_right (by rw [hac]; simp)] at e0
    simp only [List.getElem_singleton] at e0
    set W' := W ++ [(Cell.finalIndex n, (T.upto n).length)] ++ WA ++ WB with hW'
    have hul : (T.upto (n + 1)).length = (T.upto n).length + A.length + B.length + 1 := by
      rw [T.upto_succ, List.length_append, hlt]; omega
    refine ⟨W' ++ [(.final ((T.upto n).length + A.length + B.length), EndIdx), (.flags n, glueFlags P a b (states.getD n (0, 0)))],
      ?_, ?_, ?_, ?_, ?_, ?_⟩
    · refine Prod.ext ?_ hul.symm
      simp only
      rw [writes_append s W', writes_cons, writes_cons, writes_nil]
      rfl
    · refine (((h2.append (Consistent.cons (show n < _ by omega) rfl Consistent.nil)).append a2).append b2).append
        (Consistent.cons (show _ < _ by omega) ?_ (Consistent.cons (show n < _ by omega) rfl Consistent.nil))
      rw [← e0, Nat.add_assoc]
    · intro x hx
      simp only [hW', List.mem_append, List.mem_cons, List.not_mem_nil, or_false] at hx
      rcases hx with (((hx | rfl) | hx) | hx) | rfl | rfl
      · exact h3 x hx
      · exact .inl ⟨_, rfl⟩
      · exact .inr (.inl (a3 x hx))
      · exact .inr (.inl (b3 x hx))
      · exact .inr (.inl ⟨_, rfl⟩)
      · exact .inr (.inr ⟨_, rfl⟩)
    · intro q hq
      by_cases hqn : q = n
      · subst hqn
        exact ⟨(T.upto q).length, by simp [hW']⟩
      · obtain ⟨v, hv⟩ := h4 q (by omega)
        exact ⟨v, by simp [hW', hv]⟩
    · intro q hq
      by_cases hqn : q = n
      · subst hqn
        exact ⟨glueFlags P a b (states.getD q (0, 0)), by simp⟩
      · obtain ⟨v, hv⟩ := h5 q (by omega)
        exact ⟨v, by simp [hW', hv]⟩
    · intro j hj
      rw [hul] at hj
      by_cases hj1 : j < (T.upto n).length
      · obtain ⟨v, hv⟩ := h6 j hj1
        exact ⟨v, by simp [hW', hv]⟩
      by_cases hj2 : j < (T.upto n).length + A.length
      · obtain ⟨v, hv⟩ := a4 (j - (T.upto n).length) (by omega)
        rw [show (T.upto n).length + (j - (T.upto n).length) = j by omega] at hv
        exact ⟨v, by simp [hW', hv]⟩
      by_cases hj3 : j < (T.upto n).length + A.length + B.length
      · obtain ⟨v, hv⟩ := b4 (j - ((T.upto n).length + A.length)) (by omega)
        rw [show (T.upto n).length + A.length + (j - ((T.upto n).length + A.length)) = j by omega] at hv
        exact ⟨v, by simp [hW', hv]⟩
      · have : j = (T.upto n).length + A.length + B.length := by omega
        exact ⟨EndIdx, by simp [this]⟩

theorem glueTbl_upto_length (P : Policy) (a b : Multi) (states : List (Nat × Nat)) :
    ((glueTbl P a b states).upto states.length).length = glueFinals P a b states + states.length := by
  have gen : ∀ n ≤ states.length, ((glueTbl P a b states).upto n).length = glueFinals P a b (states.take n) + n := by
    intro n hn
    induction n with
    | zero => rfl
    | succ n ih =>
      rw [Tbl.upto_succ, List.length_append, ih (by omega)]
      have : (glueTbl P a b states).acc n = a.acceptedRegexps P (states.getD n (0, 0)).1 ++
        (b.acceptedRegexps P (states.getD n (0, 0)).2).map (· + a.regexpsCount) := rfl
      rw [this]
      unfold glueFinals
      rw [List.take_succ, List.getElem?_eq_getElem (by omega)]
      rw [List.getD_eq_getElem _ _ (by omega)]
      simp only [Option.toList_some, List.map_append, List.map_cons, List.map_nil, List.sum_append, List.sum_cons, List.sum_nil,
        List.length_append, List.length_map, List.length_cons, List.length_nil]
      omega
  rw [gen _ le_rfl, List.take_length]

theorem glueFinals_le (hr : (glueTask P a b).RunSpec max states conns) {As Bs : List (Language Nat)}
    (ha : Recognizes P a As) (hb : Recognizes P b Bs) : glueFinals P a b states ≤ states.length * (As.length + Bs.length) := by
  have hall : ∀ s ∈ states, (a.acceptedRegexps P s.1).length + (b.acceptedRegexps P s.2).length ≤ As.length + Bs.length := by
    intro s hs
    obtain ⟨w, hw, rfl⟩ := glue_reach_word ((hr.mem _).1 hs)
    simp only [pairAfter]
    rw [ha.accepted w hw, hb.accepted w hw]
    have := hits_length_le As w
    have := hits_length_le Bs w
    omega
  unfold glueFinals
  clear hr
  induction states with
  | nil => simp
  | cons s l ih =>
    have h1 := ih fun s hs => hall s (by simp [hs])
    have h2 := hall s (by simp)
    rw [List.map_cons, List.sum_cons, List.length_cons, Nat.add_mul]
    omega

/-- The glued scanner represents the product table. -/
theorem glueBuild_repr {base : Nat} (hP : P.Real) (hr : (glueTask P a b).RunSpec max states conns) {As Bs : List (Language Nat)}
    (ha : Recognizes P a As) (hb : Recognizes P b Bs) (hn : states.length ≤ 900000)
    (hbig : (As.length + Bs.length + 1) * states.length < 2 ^ 32) (hreg : As.length + Bs.length < 2 ^ 32)
    (hal : base % 8 = 0) (hsp : base ≤ 2 ^ 63) :
    Repr P (glueBuild P base a b states conns) (glueTbl P a b states) ∧ (glueBuild P base a b states conns).empty = false ∧
    (glueBuild P base a b states conns).base = base := by
  have hw := glueLetters_wf P a b
  have hall := glueLetters_all P a b
  have hfl := glueFinals_le hr ha hb
  have hF : glueFinals P a b states + states.length < 2 ^ 32 := by
    have : states.length * (As.length + Bs.length) + states.length = (As.length + Bs.length + 1) * states.length := by ring
    omega
  have hi := init_spec (P := P) (base := base) (n := states.length) (F := glueFinals P a b states) (q0 := 0)
    (R := a.regexpsCount + b.regexpsCount) hP hw hall hF (by rw [ha.count, hb.count]; exact hreg)
  unfold glueBuild acceptStates
  simp only
  set s := init P base states.length (glueLetters P a b) (glueFinals P a b states) 0 (a.regexpsCount + b.regexpsCount) with hs
  set T := glueTbl P a b states with hT
  have hwf : T.Wf := glueTbl_wf hr ha hb (by omega)
  have hlen := glueTbl_upto_length P a b states
  have hfit : Fits P s.base s.m := by
    rw [hi.base_eq]
    apply fits_of_counts hP hal hsp
    · rw [hi.states]; exact hn
    · rw [hi.lettersCount]; exact hall.size_le hw
    · rw [hi.finals]; omega
  obtain ⟨W1, a1, a2, a3, a4, a5, a6⟩ := acceptStates_eq (P := P) (a := a) (b := b) (states := states) s s hi.states
    (by rw [hlen, hi.finals])
  rw [a1]
  -- jumps
  have e2 : ∀ s : Multi, conns.foldl (fun s x => s.setJump P x.1 x.2.2 x.2.1) s = jumps P s (conns.map fun x => (x.1, x.2.2, x.2.1)) := by
    intro s
    unfold jumps
    rw [List.foldl_map]
  rw [e2]
  have hJm : ∀ x ∈ conns.map (fun x => (x.1, x.2.2, x.2.1)), ∃ st, states[x.1]? = some st ∧ ∃ e ∈ (glueLetters P a b).set,
      e.rep = x.2.1 ∧ x.2.2 = T.δ x.1 e.idx := by
    intro x hx
    obtain ⟨⟨i, j, c⟩, hx', rfl⟩ := List.mem_map.1 hx
    obtain ⟨st, h1, -, ⟨e, he, rfl⟩, h4⟩ := (hr.conns i j c).1 hx'
    refine ⟨st, h1, e, he, rfl, ?_⟩
    have := glueTbl_δ hr h1 he
    simp only
    have hlt := (List.getElem?_eq_some_iff.1 h4).1
    have hlt' := (List.getElem?_eq_some_iff.1 this).1
    exact (List.getElem?_inj hlt hr.nodup).1 (h4.trans this.symm)
  have hrepc : ∀ e ∈ (glueLetters P a b).set, T.cls e.rep = e.idx := fun e he => glueTbl_cls e he _ (hw.rep_mem e he)
  obtain ⟨W2, b1, b2, b3, b4⟩ := jumps_eq (P := P) (s := writes P s W1) (T := T) (l := conns.map fun x => (x.1, x.2.2, x.2.1)) s
    (rest_writes s W1) (by
      intro x hx
      obtain ⟨st, h1, e, he, h2, h3⟩ := hJm x hx
      have hl := glueTask_letter he (hw.rep_mem e he)
      rw [← h2]
      refine ⟨hl, ?_⟩
      rw [writes_get_keep a2 (Ok.of_letter hl.1), hi.letter e he _ (hw.rep_mem e he), hrepc e he]
      intro x hx
      rcases a3 x hx with ⟨q, hq⟩ | ⟨q, hq⟩ | ⟨q, hq⟩ <;> rw [hq] <;> simp) hwf.cls_lt (by rw [writes_m, hi.lettersCount]; rfl) (by
      intro x hx
      obtain ⟨st, h1, e, he, h2, h3⟩ := hJm x hx
      refine ⟨by rw [writes_m, hi.states]; exact (List.getElem?_eq_some_iff.1 h1).1, ?_⟩
      rw [← h2, hrepc e he, h3])
  rw [b1, ← writes_append]
  rw [writes_m] at b2
  have hcore : Core P (writes P s (W1 ++ W2)) T := by
    refine core_of_writes hi hw hall hwf hfit rfl rfl rfl rfl (fun e he c hc => glueTbl_cls e he c hc) ?_ (le_of_eq hlen) hF
      ⟨a2.append b2, ?_, ?_, ?_, ?_, ?_⟩
    · intro q _
      have := (glueFlags_bits (P := P) (a := a) (b := b) (states.getD q (0, 0))).2.2
      show glueFlags P a b _ < _
      omega
    · intro x hx c
      rcases List.mem_append.1 hx with hx | hx
      · rcases a3 x hx with ⟨q, hq⟩ | ⟨q, hq⟩ | ⟨q, hq⟩ <;> rw [hq] <;> simp
      · obtain ⟨q, k, hq⟩ := b3 x hx; rw [hq]; simp
    · intro q hq
      obtain ⟨v, hv⟩ := a5 q hq
      exact ⟨v, List.mem_append_left _ hv⟩
    · intro q hq
      obtain ⟨v, hv⟩ := a4 q hq
      exact ⟨v, List.mem_append_left _ hv⟩
    · intro j hj
      obtain ⟨v, hv⟩ := a6 j hj
      exact ⟨v, List.mem_append_left _ hv⟩
    · intro q hq k hk
      obtain ⟨e, he, rfl⟩ := DTask.exists_idx hw hk
      have hq' : q < states.length := hq
      have hmem : (q, T.δ q e.idx, e.rep) ∈ conns :=
        (hr.conns _ _ _).2 ⟨_, List.getElem?_eq_getElem hq', rfl, ⟨e, he, rfl⟩, glueTbl_δ hr (List.getElem?_eq_getElem hq') he⟩
      obtain ⟨v, hv⟩ := b4 _ (List.mem_map.2 ⟨_, hmem, rfl⟩)
      simp only at hv
      rw [hrepc e he] at hv
      exact ⟨v, List.mem_append_right _ hv⟩
  obtain ⟨r1, r2⟩ := buildShortcuts_spec hP hcore
  obtain ⟨-, r3, r4⟩ := m_of_rest r2
  refine ⟨r1, ?_, ?_⟩
  · rw [r4, writes_empty, hi.empty]
  · rw [r3, writes_base, hi.base_eq]

end

end Multi
end Pire
