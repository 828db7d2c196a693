import Verif.Proofs.Loaded
import Verif.Spec.Running

/-!
# Loaded scanners: running, copying, gluing
-/

namespace Pire
open Spec Multi

namespace ATbl

/-- The state after a word. -/
def after (T : ATbl) (q : Nat) (w : List Nat) : Nat := w.foldl T.step q

/-- The actions met while reading a word. -/
def acts (T : ATbl) : Nat → List Nat → List Nat
  | _, [] => []
  | q, c :: w => T.act q c :: T.acts (T.step q c) w

theorem acts_length (T : ATbl) (q : Nat) (w : List Nat) : (T.acts q w).length = w.length := by
  induction w generalizing q with
  | nil => rfl
  | cons c w ih => rw [acts, List.length_cons, List.length_cons, ih]

theorem acts_mem {T : ATbl} (hs : ∀ q < T.n, ∀ c, IsLetter c → T.step q c < T.n) {q : Nat} (hq : q < T.n) {w : List Nat} (hw : IsWord w)
    {x : Nat} (hx : x ∈ T.acts q w) : ∃ q < T.n, ∃ c, IsLetter c ∧ T.act q c = x := by
  induction w generalizing q with
  | nil => cases hx
  | cons c w ih =>
    have hc : IsLetter c := hw c (by simp)
    rcases List.mem_cons.1 hx with rfl | hx
    · exact ⟨q, hq, c, hc, rfl⟩
    · exact ih (hs q hq c hc) (fun x hx => hw x (by simp [hx])) hx

end ATbl

namespace Loaded

theorem readLE_lt (mem : Mem) (p n : Nat) : Scn.readLE mem p n < 256 ^ n := by
  induction n generalizing p with
  | zero => simp [Scn.readLE]
  | succ n ih =>
    have := ih (p + 1)
    have h := (mem p).isLt
    unfold Scn.readLE
    rw [Nat.pow_succ]
    omega

theorem Repr.act_lt {s : Loaded} {T : ATbl} (h : Repr s T) {q c : Nat} (hq : q < T.n) (hc : IsLetter c) : T.act q c < 2 ^ 32 := by
  have := congrArg Prod.snd (h.next q hq c hc)
  simp only at this
  rw [← this]
  unfold Loaded.next Loaded.nextTranslated
  have := readLE_lt s.mem (s.indexToState q + 8 * s.letter c + 4) 4
  simp only
  norm_num at this ⊢
  exact this

theorem Repr.tag_lt {s : Loaded} {T : ATbl} (h : Repr s T) {q : Nat} (hq : q < T.n) : T.tag q < 256 := by
  rw [← h.tag q hq]
  have := readLE_lt s.mem (s.tags + q) 1
  norm_num at this
  exact this

theorem Repr.acts_lt {s : Loaded} {T : ATbl} (h : Repr s T) {w : List Nat} (hw : IsWord w) {x : Nat} (hx : x ∈ T.acts T.q0 w) : x < 2 ^ 32 := by
  obtain ⟨q, hq, c, hc, rfl⟩ := ATbl.acts_mem h.step_lt h.q0 hw hx
  exact h.act_lt hq hc

theorem Repr.after_lt {s : Loaded} {T : ATbl} (h : Repr s T) {q : Nat} (hq : q < T.n) {w : List Nat} (hw : IsWord w) : T.after q w < T.n := by
  induction w generalizing q with
  | nil => exact hq
  | cons c w ih =>
    exact ih (h.step_lt q hq c (hw c (by simp))) fun x hx => hw x (by simp [hx])

/-! ### Gluing -/

section
variable {a b : Loaded}

theorem glueLetters_wf (a b : Loaded) : (glueLetters a b).WF := by
  unfold glueLetters
  exact Partition.WF.foldl_append Partition.WF.empty glueLetters_list.1 fun _ _ => rfl

theorem glueLetters_all (a b : Loaded) : AllLetters (glueLetters a b) := by
  intro c
  unfold glueLetters
  rw [Partition.inv_foldl_isSome, glueLetters_list.2]
  simp [Partition.empty]

theorem glueLetters_classifies (a b : Loaded) : (glueLetters a b).Classifies (lettersEq a b) := by
  unfold glueLetters
  apply Partition.Classifies.foldl_append Partition.WF.empty _ glueLetters_list.1 fun _ _ => rfl
  · intro c; simp [lettersEq]
  · intro c d
    unfold lettersEq
    simp only [Bool.and_eq_true, beq_iff_eq]
    rintro ⟨h1, h2⟩
    exact ⟨h1.symm, h2.symm⟩
  · constructor
    · intro c r h; cases h
    · intro e he; cases he

theorem glue_letter {e : PClass} (he : e ∈ (glueLetters a b).set) {c : Nat} (hc : c ∈ e.members) : IsLetter c :=
  (glueLetters_all a b c).1 (by rw [(glueLetters_wf a b).inv_of_mem he hc]; rfl)

theorem glue_class {e : PClass} (he : e ∈ (glueLetters a b).set) {c : Nat} (hc : c ∈ e.members) :
    a.letter c = a.letter e.rep ∧ b.letter c = b.letter e.rep := by
  have := (glueLetters_classifies a b).1 c e.rep ((glueLetters_wf a b).inv_of_mem he hc)
  unfold lettersEq at this
  simp only [Bool.and_eq_true, beq_iff_eq] at this
  exact ⟨this.1.symm, this.2.symm⟩

theorem next_letter (s : Loaded) {c d : Nat} (h : s.letter c = s.letter d) (q : Nat) : s.next q c = s.next q d := by
  unfold next; rw [h]

theorem actionAt_letter (s : Loaded) {c d : Nat} (h : s.letter c = s.letter d) (q : Nat) : s.actionAt q c = s.actionAt q d := by
  unfold actionAt transitionIndex; rw [h]

theorem glue_class_of_letter {c : Nat} (hc : IsLetter c) : ∃ e ∈ (glueLetters a b).set, c ∈ e.members := by
  obtain ⟨r, hr⟩ := Option.isSome_iff_exists.1 ((glueLetters_all a b c).2 hc)
  obtain ⟨e, he, -, hce⟩ := ((glueLetters_wf a b).inv_iff _ _).1 hr
  exact ⟨e, he, hce⟩

variable {Ta Tb : ATbl} {states : List (Nat × Nat)} {conns : List (Nat × Nat × Nat)} {max : Nat}

/-- The pairs of states are pairs of rows. -/
theorem glue_reach (ha : Repr a Ta) (hb : Repr b Tb) {s : Nat × Nat} (h : (glueTask a b).Reach s) :
    ∃ q < Ta.n, ∃ p < Tb.n, s = (a.indexToState q, b.indexToState p) := by
  induction h with
  | init => exact ⟨Ta.q0, ha.q0, Tb.q0, hb.q0, by rw [← ha.initial, ← hb.initial]; rfl⟩
  | @step s e _ _ he ih =>
    obtain ⟨q, hq, p, hp, rfl⟩ := ih
    have hm := glue_letter he ((glueLetters_wf a b).rep_mem e he)
    refine ⟨_, ha.step_lt q hq _ hm, _, hb.step_lt p hp _ hm, ?_⟩
    show ((a.next _ _).1, (b.next _ _).1) = _
    simp only
    rw [ha.next q hq _ hm, hb.next p hp _ hm]

/-- The numbers of the states of a pair. -/
def pairIdx (a b : Loaded) (states : List (Nat × Nat)) (i : Nat) : Nat × Nat :=
  (a.stateIdx (states.getD i (0, 0)).1, b.stateIdx (states.getD i (0, 0)).2)

/-- The product, with actions computed by `comb`. -/
def glueTbl (comb : Nat → Nat → Nat) (a b : Loaded) (states : List (Nat × Nat)) : ATbl where
  n := states.length
  q0 := 0
  step := fun i c => states.idxOf ((glueTask a b).next (states.getD i (0, 0)) c)
  act := fun i c => comb (a.actionAt (states.getD i (0, 0)).1 c) (b.actionAt (states.getD i (0, 0)).2 c)
  tag := fun i => a.tag (a.stateIdx (states.getD i (0, 0)).1) ||| b.tag (b.stateIdx (states.getD i (0, 0)).2) <<< 3

theorem glue_pair (ha : Repr a Ta) (hb : Repr b Tb) (hr : (glueTask a b).RunSpec max states conns) {i : Nat} (hi : i < states.length) :
    (pairIdx a b states i).1 < Ta.n ∧ (pairIdx a b states i).2 < Tb.n ∧
    states.getD i (0, 0) = (a.indexToState (pairIdx a b states i).1, b.indexToState (pairIdx a b states i).2) := by
  have hs := List.getElem?_eq_getElem hi
  obtain ⟨q, hq, p, hp, e⟩ := glue_reach ha hb ((hr.mem _).1 (List.mem_of_getElem? hs))
  have e1 : states.getD i (0, 0) = (a.indexToState q, b.indexToState p) := by rw [getD_of_getElem? hs, e]
  unfold pairIdx
  rw [e1]
  simp only
  rw [ha.stateIdx hq, hb.stateIdx hp]
  exact ⟨hq, hp, rfl⟩

theorem glueTbl_step (comb : Nat → Nat → Nat) (ha : Repr a Ta) (hb : Repr b Tb) (hr : (glueTask a b).RunSpec max states conns) {i : Nat} (hi : i < states.length)
    {c : Nat} (hc : IsLetter c) : (glueTbl comb a b states).step i c < states.length ∧
      pairIdx a b states ((glueTbl comb a b states).step i c) = (Ta.step (pairIdx a b states i).1 c, Tb.step (pairIdx a b states i).2 c) ∧
      states[(glueTbl comb a b states).step i c]? = some ((glueTask a b).next (states.getD i (0, 0)) c) := by
  obtain ⟨hq, hp, e⟩ := glue_pair ha hb hr hi
  obtain ⟨cl, hcl, hce⟩ := glue_class_of_letter (a := a) (b := b) hc
  have hs := List.getElem?_eq_getElem hi
  have hreach : (glueTask a b).Reach (states.getD i (0, 0)) := by
    rw [getD_of_getElem? hs]; exact (hr.mem _).1 (List.mem_of_getElem? hs)
  have hnx : (glueTask a b).next (states.getD i (0, 0)) c = (glueTask a b).next (states.getD i (0, 0)) cl.rep := by
    obtain ⟨h1, h2⟩ := glue_class hcl hce
    show (_, _) = (_, _)
    rw [next_letter a h1, next_letter b h2]
  have hmem : (glueTask a b).next (states.getD i (0, 0)) c ∈ states := by
    rw [hnx]; exact (hr.mem _).2 (.step hreach rfl hcl)
  have hlt : (glueTbl comb a b states).step i c < states.length := List.idxOf_lt_length_of_mem hmem
  have hget : states[(glueTbl comb a b states).step i c]? = some ((glueTask a b).next (states.getD i (0, 0)) c) := by
    show states[states.idxOf _]? = _
    rw [List.getElem?_eq_getElem (List.idxOf_lt_length_of_mem hmem), List.getElem_idxOf]
  refine ⟨hlt, ?_, hget⟩
  unfold pairIdx at hq hp e ⊢
  have e2 : (glueTask a b).next (states.getD i (0, 0)) c = ((a.next (states.getD i (0, 0)).1 c).1, (b.next (states.getD i (0, 0)).2 c).1) := rfl
  rw [getD_of_getElem? hget, e2]
  simp only
  generalize hx : a.stateIdx (states.getD i (0, 0)).1 = x at *
  generalize hy : b.stateIdx (states.getD i (0, 0)).2 = y at *
  rw [e]
  simp only
  rw [ha.next x hq c hc, hb.next y hp c hc]
  simp only
  rw [ha.stateIdx (ha.step_lt x hq c hc), hb.stateIdx (hb.step_lt y hp c hc)]

theorem glueTbl_act (comb : Nat → Nat → Nat) (ha : Repr a Ta) (hb : Repr b Tb) (hr : (glueTask a b).RunSpec max states conns) {i : Nat} (hi : i < states.length)
    {c : Nat} (hc : IsLetter c) : (glueTbl comb a b states).act i c = comb (Ta.act (pairIdx a b states i).1 c) (Tb.act (pairIdx a b states i).2 c) := by
  obtain ⟨hq, hp, e⟩ := glue_pair ha hb hr hi
  show comb (a.actionAt (states.getD i (0, 0)).1 c) (b.actionAt (states.getD i (0, 0)).2 c) = _
  rw [e]
  simp only
  rw [ha.actionAt hq hc, hb.actionAt hp hc]

theorem glueTbl_acts (comb : Nat → Nat → Nat) (ha : Repr a Ta) (hb : Repr b Tb) (hr : (glueTask a b).RunSpec max states conns) {i : Nat} (hi : i < states.length)
    {w : List Nat} (hw : IsWord w) : (glueTbl comb a b states).acts i w =
      List.zipWith comb (Ta.acts (pairIdx a b states i).1 w) (Tb.acts (pairIdx a b states i).2 w) := by
  induction w generalizing i with
  | nil => rfl
  | cons c w ih =>
    have hc : IsLetter c := hw c (by simp)
    obtain ⟨h1, h2, -⟩ := glueTbl_step comb ha hb hr hi hc
    unfold ATbl.acts
    rw [List.zipWith_cons_cons, ih h1 fun x hx => hw x (by simp [hx]), h2, glueTbl_act comb ha hb hr hi hc]

theorem glueTbl_zero (ha : Repr a Ta) (hb : Repr b Tb) (hr : (glueTask a b).RunSpec max states conns) :
    0 < states.length ∧ pairIdx a b states 0 = (Ta.q0, Tb.q0) := by
  have h0 := hr.zero
  refine ⟨(List.getElem?_eq_some_iff.1 h0).1, ?_⟩
  unfold pairIdx
  rw [getD_of_getElem? h0]
  show (a.stateIdx a.initial, b.stateIdx b.initial) = _
  rw [ha.initial, hb.initial, ha.stateIdx ha.q0, hb.stateIdx hb.q0]

theorem acceptStates_eq (base : Nat) (a b : Loaded) (states : List (Nat × Nat)) (comb : Nat → Nat → Nat) : acceptStates base a b states =
    (init base states.length (glueLetters a b) 0 (a.reCount + b.reCount)).setTags
      ((List.range states.length).map fun i => (i, (glueTbl comb a b states).tag i)) := by
  unfold acceptStates setTags
  rw [zipIdx_range states (0, 0), List.foldl_map, List.foldl_map]
  rfl

/-- The glued scanner, for actions as stored: `act` gives the action of every connection. -/
theorem glue_build {base : Nat} (comb : Nat → Nat → Nat) (ha : Repr a Ta) (hb : Repr b Tb) (hr : (glueTask a b).RunSpec max states conns)
    (hP : (glueLetters a b).size ≤ 256) (hal : base % 8 = 0) (hs : base + bufSize states.length (glueLetters a b).size ≤ 2 ^ 64)
    (hlim : states.length * ((glueLetters a b).size * 8) ≤ 2 ^ 31) {act : Nat × Nat × Nat → Nat}
    (hact : ∀ x ∈ conns, act x % 2 ^ 32 = (glueTbl comb a b states).act x.1 x.2.2) :
    let g := (acceptStates base a b states).setJumps (conns.map fun x => ⟨x.1, x.2.2, x.2.1, act x⟩)
    Repr g { glueTbl comb a b states with tag := fun q => (glueTbl comb a b states).tag q % 256 } ∧
    g.regexpsCount = (a.reCount + b.reCount) % 2 ^ 32 ∧ g.empty = false ∧
      Same (markup states.length (glueLetters a b).size ((a.reCount + b.reCount) % 2 ^ 32) (base + MaxChar + 8 * (0 * (glueLetters a b).size)) base fun _ => 0) g := by
  intro g
  have hw := glueLetters_wf a b
  have hrep : ∀ e ∈ (glueLetters a b).set, IsLetter e.rep := fun e he => glue_letter he (hw.rep_mem e he)
  have := build_repr (base := base) (n := states.length) (q0 := 0) (r := a.reCount + b.reCount) (P := glueLetters a b) (T := glueTbl comb a b states)
    (W := conns.map fun x => ⟨x.1, x.2.2, x.2.1, act x⟩) hw (glueLetters_all a b) hP rfl rfl (glueTbl_zero ha hb hr).1 hal hs hlim
    (fun q hq c hc => (glueTbl_step comb ha hb hr hq hc).1) ?_ ?_ ?_
  · rw [← acceptStates_eq] at this
    exact this
  · intro w hw'
    obtain ⟨⟨i, j, c⟩, hx, rfl⟩ := List.mem_map.1 hw'
    obtain ⟨s, h1, -, ⟨e, he, rfl⟩, h3⟩ := (hr.conns i j c).1 hx
    have hi := (List.getElem?_eq_some_iff.1 h1).1
    have hc := hrep e he
    obtain ⟨k1, k2, k3⟩ := glueTbl_step comb ha hb hr hi hc
    refine ⟨hi, hc, ?_, hact _ hx⟩
    rw [getD_of_getElem? h1] at k3
    exact (List.getElem?_inj (List.getElem?_eq_some_iff.1 h3).1 hr.nodup).1 (h3.trans k3.symm)
  · intro q hq e he
    have hc := hrep e he
    obtain ⟨k1, k2, k3⟩ := glueTbl_step comb ha hb hr hq hc
    refine ⟨_, List.mem_map.2 ⟨(q, (glueTbl comb a b states).step q e.rep, e.rep), ?_, rfl⟩, rfl, rfl⟩
    have hq' := List.getElem?_eq_getElem hq
    exact (hr.conns _ _ _).2 ⟨_, hq', rfl, ⟨e, he, rfl⟩, by rw [k3, getD_of_getElem? hq']⟩
  · intro q hq e he c hc
    obtain ⟨h1, h2⟩ := glue_class he hc
    constructor
    · show states.idxOf ((glueTask a b).next _ c) = states.idxOf ((glueTask a b).next _ e.rep)
      congr 1
      show (_, _) = (_, _)
      rw [next_letter a h1, next_letter b h2]
    · show comb _ _ = comb _ _
      rw [actionAt_letter a h1, actionAt_letter b h2]

end

/-! ### Copying -/

/-- The layout of a scanner that owns its memory. -/
structure Owned (s : Loaded) (base : Nat) : Prop where
  letters : s.letters = base
  jumps : s.jumps = base + MaxChar
  tags : s.tags = base + MaxChar + 8 * (s.statesCount * s.lettersCount)
  nonempty : s.empty = false

theorem Same.owned {s : Loaded} {n l r i base : Nat} {mem : Mem} (h : Same (markup n l r i base mem) s) (hs : n * l < 2 ^ 32) : Owned s base := by
  refine ⟨h.letters, h.jumps, ?_, h.empty⟩
  rw [h.tags, h.states, h.lettersCount]
  show _ + 8 * (n * l % 2 ^ 32) = _
  rw [Nat.mod_eq_of_lt hs]; rfl

/-- Reading from a block that was copied. -/
theorem readLE_block {mem : Mem} {base size p : Nat} (k d : Nat) (hk : d + k ≤ size) :
    Scn.readLE (fun x => if base ≤ x ∧ x < base + size then mem (p + (x - base)) else 0) (base + d) k = Scn.readLE mem (p + d) k := by
  induction k generalizing d with
  | zero => rfl
  | succ k ih =>
    unfold Scn.readLE
    rw [Nat.add_assoc, ih (d + 1) (by omega), Nat.add_assoc]
    congr 2
    rw [if_pos (by omega), Nat.add_sub_cancel_left]

theorem indexToState_fit {n l q : Nat} (hq : q < n) : 8 * (q * l) + 8 * l ≤ 8 * (n * l) := by
  have : (q + 1) * l ≤ n * l := Nat.mul_le_mul_right _ hq
  rw [Nat.add_mul] at this
  omega

/-- A scanner whose arrays are copies (the jumps being relative) encodes the same table. -/
theorem relocate_repr {s s' : Loaded} {T : ATbl} (h : Repr s T) (ha : s'.jumps % 8 = 0) (hs : s'.jumps + 8 * (T.n * s.lettersCount) ≤ 2 ^ 64)
    (e1 : s'.statesCount = s.statesCount) (e2 : s'.lettersCount = s.lettersCount)
    (e4 : s'.initial = s'.indexToState T.q0)
    (hl : ∀ c, IsLetter c → s'.letter c = s.letter c)
    (hj : ∀ d k, d + k ≤ 8 * (T.n * s.lettersCount) → Scn.readLE s'.mem (s'.jumps + d) k = Scn.readLE s.mem (s.jumps + d) k)
    (ht : ∀ q < T.n, s'.tag q = s.tag q) : Repr s' T := by
  have hnl : T.n * (s.lettersCount * 8) = 8 * (T.n * s.lettersCount) := by ring
  have hlim := h.limit
  have hspc := h.space
  rw [hnl] at hlim hspc
  have hidx : ∀ q, s'.indexToState q = s'.jumps + 8 * (q * s.lettersCount) := fun q => by unfold indexToState jumpAt; rw [e2]
  have hidx0 : ∀ q, s.indexToState q = s.jumps + 8 * (q * s.lettersCount) := fun q => rfl
  refine ⟨h.q0, h.step_lt, by rw [e2]; exact h.pos, by rw [e2]; exact h.small, ha, by rw [e2, hnl]; exact hs, by rw [e2]; exact h.limit, e1.trans h.states, e4, ?_, ?_, ?_⟩
  · intro c hc
    rw [hl c hc, e2]; exact h.letter c hc
  · intro q hq c hc
    have hn := h.next q hq c hc
    have hlc := h.letter c hc
    have f1 := indexToState_fit (l := s.lettersCount) hq
    have f2 := indexToState_fit (l := s.lettersCount) (h.step_lt q hq c hc)
    rw [hidx0, hidx0] at hn
    rw [hidx, hidx]
    unfold next nextTranslated at hn ⊢
    rw [hl c hc]
    have r1 := hj (8 * (q * s.lettersCount) + 8 * s.letter c) 4 (by omega)
    have r2 := hj (8 * (q * s.lettersCount) + 8 * s.letter c + 4) 4 (by omega)
    simp only [← Nat.add_assoc] at r1 r2
    rw [r1, r2]
    rw [Prod.mk.injEq] at hn ⊢
    refine ⟨?_, hn.2⟩
    have h1 := hn.1
    have hlt : signExtend (Scn.readLE s.mem (s.jumps + 8 * (q * s.lettersCount) + 8 * s.letter c) 4) < 2 ^ 64 := by
      unfold signExtend
      have := readLE_lt s.mem (s.jumps + 8 * (q * s.lettersCount) + 8 * s.letter c) 4
      norm_num at this
      split <;> omega
    generalize signExtend _ = x at h1 hlt ⊢
    omega
  · intro q hq
    rw [ht q hq, h.tag q hq]

theorem markup_fields (n l r i base : Nat) (mem : Mem) : (markup n l r i base mem).statesCount = n ∧ (markup n l r i base mem).lettersCount = l ∧
    (markup n l r i base mem).regexpsCount = r ∧ (markup n l r i base mem).initial = i ∧ (markup n l r i base mem).letters = base ∧
    (markup n l r i base mem).jumps = base + MaxChar ∧ (markup n l r i base mem).tags = base + MaxChar + 8 * (n * l % 2 ^ 32) ∧
    (markup n l r i base mem).mem = mem ∧ (markup n l r i base mem).empty = false := ⟨rfl, rfl, rfl, rfl, rfl, rfl, rfl, rfl, rfl⟩

theorem copy_initial {b n l q j i : Nat} (hq : q < n) (hl : 0 < l) (hs : b + 264 + 8 * (n * l) ≤ 2 ^ 64) (hi : i = j + 8 * (q * l)) :
    (b + 264 + (i + 2 ^ 64 - j)) % 2 ^ 64 = b + 264 + 8 * (q * l) := by
  have := indexToState_fit (l := l) hq
  omega

/-- A copy encodes the same table. -/
theorem copyCtor_repr {s : Loaded} {T : ATbl} {own : Bool} {base base' : Nat} (h : Repr s T) (ho : own = true → Owned s base)
    (ha : base' % 8 = 0) (hs : base' + bufSize s.statesCount s.lettersCount ≤ 2 ^ 64) :
    Repr (copyCtor own base' s) T ∧ (copyCtor own base' s).reCount = s.reCount := by
  unfold copyCtor
  cases own with
  | false => exact ⟨h, rfl⟩
  | true =>
    have ho := ho rfl
    rw [if_pos rfl]
    have hM : MaxChar = 264 := rfl
    have hlim := h.limit
    have hst := h.states
    have hnl : T.n * (s.lettersCount * 8) = 8 * (T.n * s.lettersCount) := by ring
    have hb : bufSize s.statesCount s.lettersCount = 264 + 8 * (T.n * s.lettersCount) + T.n := by unfold bufSize; rw [hst, hnl, hM]
    rw [hnl] at hlim
    have hmod : s.statesCount * s.lettersCount % 2 ^ 32 = T.n * s.lettersCount := by rw [hst]; exact Nat.mod_eq_of_lt (by omega)
    have hrd : ∀ k d, d + k ≤ 264 + 8 * (T.n * s.lettersCount) + T.n →
        Scn.readLE (fun x => if base' ≤ x ∧ x < base' + bufSize s.statesCount s.lettersCount then s.mem (s.letters + (x - base')) else 0) (base' + d) k =
          Scn.readLE s.mem (s.letters + d) k := by
      intro k d hd
      rw [← hb] at hd
      exact readLE_block k d hd
    rw [hb] at hs
    obtain ⟨f1, f2, f3, f4, f5, f6, f7, f8, f9⟩ := markup_fields s.statesCount s.lettersCount s.regexpsCount
      ((base' + MaxChar + (s.initial + 2 ^ 64 - s.jumps)) % 2 ^ 64) base'
      (fun x => if base' ≤ x ∧ x < base' + bufSize s.statesCount s.lettersCount then s.mem (s.letters + (x - base')) else 0)
    generalize markup s.statesCount s.lettersCount s.regexpsCount
      ((base' + MaxChar + (s.initial + 2 ^ 64 - s.jumps)) % 2 ^ 64) base'
      (fun x => if base' ≤ x ∧ x < base' + bufSize s.statesCount s.lettersCount then s.mem (s.letters + (x - base')) else 0) = s' at *
    rw [← f8] at hrd
    rw [hM] at f4 f6 f7
    refine ⟨relocate_repr h ?_ ?_ f1 f2 ?_ ?_ ?_ ?_, ?_⟩
    · rw [f6]; omega
    · rw [f6]; omega
    · rw [f4]
      unfold indexToState jumpAt
      rw [f6, f2]
      exact copy_initial h.q0 h.pos (by omega) h.initial
    · intro c hc
      have := hc.1
      unfold letter
      rw [f5]
      exact hrd 1 c (by omega)
    · intro d k hd
      rw [f6, Nat.add_assoc, hrd k _ (by omega), ho.jumps, ho.letters, Nat.add_assoc, hM]
    · intro q hq
      unfold tag
      rw [f7, hmod, Nat.add_assoc, Nat.add_assoc, hrd 1 _ (by omega), ho.tags, ho.letters, hst, Nat.add_assoc, Nat.add_assoc, hM]
    · unfold reCount
      rw [ho.nonempty, f9, f3]

end Loaded
end Pire
