import Verif.Proofs.MultiBuild

/-!
# `BuildShortcuts` computes sound exit masks and touches nothing else
-/

namespace Pire
open Spec
namespace Multi

variable {P : Policy} {s : Multi} {T : Tbl}

/-- `s'` differs from `s` only in masks of row `row`. -/
structure OnlyMasks (P : Policy) (row : Nat) (s s' : Multi) : Prop where
  rest : s'.rest = s.rest
  keep : ∀ c, Ok P s.m c → (∀ i j, c ≠ .mask row i j) → s'.get P c = s.get P c

theorem OnlyMasks.refl (row : Nat) (s : Multi) : OnlyMasks P row s s := ⟨rfl, fun _ _ _ => rfl⟩

theorem OnlyMasks.m {row : Nat} {s s' : Multi} (h : OnlyMasks P row s s') : s'.m = s.m := (m_of_rest h.rest).1

theorem OnlyMasks.trans {row : Nat} {s s' s'' : Multi} (h : OnlyMasks P row s s') (h' : OnlyMasks P row s' s'') :
    OnlyMasks P row s s'' :=
  ⟨h'.rest.trans h.rest, fun c hc hn => (h'.keep c (by rw [h.m]; exact hc) hn).trans (h.keep c hc hn)⟩

theorem setMask_eq (s : Multi) (row i v : Nat) :
    s.setMask P row i v = writes P s ((List.range 4).map fun j => (Cell.mask row i j, v)) := by
  unfold setMask writes
  rw [List.foldl_map]

theorem setMask_only {row i : Nat} (s : Multi) (v : Nat) (hr : row < s.m.statesCount) (hi : i < P.masks) :
    OnlyMasks P row s (s.setMask P row i v) := by
  refine ⟨rest_setMask .., ?_⟩
  intro c hc hn
  rw [setMask_eq]
  apply writes_get_of_not_mem
  · intro x hx
    obtain ⟨j, hj, rfl⟩ := List.mem_map.1 hx
    exact ⟨hr, hi, List.mem_range.1 hj⟩
  · exact hc
  · intro x hx
    obtain ⟨j, hj, rfl⟩ := List.mem_map.1 hx
    exact Ne.symm (hn i j)

theorem setMask_val {row i : Nat} (s : Multi) {v : Nat} (hr : row < s.m.statesCount) (hi : i < P.masks) (hv : v < 2 ^ 64) :
    MaskVal P (s.setMask P row i v) row i v := by
  intro j hj
  rw [setMask_eq, writes_get_of_mem (v := v)]
  · exact Nat.mod_eq_of_lt (by show v < 256 ^ 8; omega)
  · intro x hx
    obtain ⟨j, hj, rfl⟩ := List.mem_map.1 hx
    exact ⟨hr, hi, List.mem_range.1 hj⟩
  · exact List.mem_map.2 ⟨j, List.mem_range.2 hj, rfl⟩
  · intro x hx _
    obtain ⟨j, hj, rfl⟩ := List.mem_map.1 hx
    rfl

theorem setMask_other {row i i' w : Nat} (s : Multi) (v : Nat) (hr : row < s.m.statesCount) (hi : i < P.masks) (hi' : i' < P.masks)
    (hne : i' ≠ i) (h : MaskVal P s row i' w) : MaskVal P (s.setMask P row i v) row i' w := by
  intro j hj
  rw [setMask_eq, writes_get_of_not_mem]
  · exact h j hj
  · intro x hx
    obtain ⟨j, hj, rfl⟩ := List.mem_map.1 hx
    exact ⟨hr, hi, List.mem_range.1 hj⟩
  · exact ⟨hr, hi', hj⟩
  · intro x hx
    obtain ⟨j, hj, rfl⟩ := List.mem_map.1 hx
    simp only [ne_eq, Cell.mask.injEq, not_and]
    intro _ h; exact absurd h.symm hne

theorem fillSizeT_lt (c : Nat) (hc : c < 256) : fillSizeT c < 2 ^ 64 := by
  rw [fillSizeT_eq c hc]
  have : ∀ n, repByte c n < 256 ^ n := by
    intro n
    induction n with
    | zero => simp [repByte]
    | succ n ih => unfold repByte; rw [pow_succ]; omega
  exact this 8

/-- The masks filled so far: the bytes `l`, or "no exit" if there are none. -/
structure Filled (P : Policy) (s : Multi) (row : Nat) (l : List Nat) : Prop where
  len : l.length ≤ P.masks
  byte : ∀ c ∈ l, c < 256
  val : ∀ i (h : i < l.length), MaskVal P s row i (fillSizeT l[i])
  none : l = [] → MaskVal P s row 0 2

theorem setMasks_spec {row : Nat} (hm : P.masks ≠ 0) (hr : row < s.m.statesCount) {l cs : List Nat} (h : Filled P s row l)
    (hlen : l.length + cs.length ≤ P.masks) (hcs : ∀ c ∈ cs, c < 256) :
    OnlyMasks P row s (s.setMasks P row l.length cs).1 ∧ Filled P (s.setMasks P row l.length cs).1 row (l ++ cs) ∧
    (s.setMasks P row l.length cs).2 = (l ++ cs).length := by
  induction cs generalizing s l with
  | nil => simp only [setMasks, List.append_nil]; exact ⟨OnlyMasks.refl .., h, trivial⟩
  | cons c cs ih =>
    simp only [List.length_cons] at hlen
    unfold setMasks
    rw [if_neg hm]
    have hc := hcs c (by simp)
    have ho := setMask_only s (fillSizeT c) hr (i := l.length) (P := P) (by omega)
    have hf : Filled P (s.setMask P row l.length (fillSizeT c)) row (l ++ [c]) := by
      refine ⟨by simp; omega, ?_, ?_, by simp⟩
      · intro x hx
        rcases List.mem_append.1 hx with hx | hx
        · exact h.byte x hx
        · rw [List.mem_singleton.1 hx]; exact hc
      · intro i hi
        by_cases hil : i < l.length
        · rw [List.getElem_append_left hil]
          exact setMask_other s _ hr (by omega) (by omega) (by omega) (h.val i hil)
        · have : i = l.length := by simp at hi; omega
          subst this
          rw [List.getElem_append_right (by omega)]
          simp only [Nat.sub_self, List.getElem_cons_zero]
          exact setMask_val s hr (by omega) (fillSizeT_lt c hc)
    have := ih (s := s.setMask P row l.length (fillSizeT c)) (l := l ++ [c]) (by rw [ho.m]; exact hr) hf (by simp; omega)
      (fun x hx => hcs x (by simp [hx]))
    rw [List.append_assoc, List.singleton_append, List.length_append, List.length_singleton] at this
    exact ⟨ho.trans this.1, this.2⟩

/-- The loop over letter classes: it either gives up, or leaves masks for exactly the bytes that may leave the state. -/
theorem shortcutLoop_spec {chars : Nat → List Nat} {row : Nat} (hm : P.masks ≠ 0) (hr : row < s.m.statesCount)
    (hcs : ∀ k, ∀ c ∈ chars k, c < 256) (loops : Nat → Prop) {ks : List Nat}
    (hks : ∀ k ∈ ks, Ok P s.m (.slot row k) ∧
      (P.reloc.go (s.indexToState P row) (s.get P (.slot row k)) = s.indexToState P row → loops k))
    {l : List Nat} (h : Filled P s row l) :
    OnlyMasks P row s (shortcutLoop P chars row ks s l.length).1 ∧
    ∃ l', Filled P (shortcutLoop P chars row ks s l.length).1 row l' ∧
      (shortcutLoop P chars row ks s l.length).2.1 = l'.length ∧ (∀ x ∈ l, x ∈ l') ∧
      ((shortcutLoop P chars row ks s l.length).2.2 = true → ∀ k ∈ ks, loops k ∨ ∀ c ∈ chars k, c ∈ l') := by
  induction ks generalizing s l with
  | nil =>
    simp only [shortcutLoop]
    exact ⟨OnlyMasks.refl .., l, h, rfl, fun x hx => hx, by simp⟩
  | cons k ks ih =>
    obtain ⟨hok, hloop⟩ := hks k (by simp)
    unfold shortcutLoop
    simp only
    by_cases hgo : P.reloc.go (s.indexToState P row) (s.get P (.slot row k)) ≠ s.indexToState P row
    · rw [if_pos hgo]
      by_cases hfull : l.length + (chars k).length > P.masks
      · rw [if_pos hfull]
        exact ⟨OnlyMasks.refl .., l, h, rfl, fun x hx => hx, by simp⟩
      · rw [if_neg hfull]
        obtain ⟨h1, h2, h3⟩ := setMasks_spec hm hr h (by omega) (hcs k)
        set s1 := (s.setMasks P row l.length (chars k)).1 with hs1
        rw [h3]
        obtain ⟨g1, l', g2, g3, g4, g5⟩ := ih (s := s1) (l := l ++ chars k) (by rw [h1.m]; exact hr) (by
          intro k' hk'
          obtain ⟨a, b⟩ := hks k' (by simp [hk'])
          refine ⟨by rw [h1.m]; exact a, ?_⟩
          rw [indexToState_congr h1.rest, h1.keep _ a (by simp)]
          exact b) h2
        refine ⟨h1.trans g1, l', g2, g3, fun x hx => g4 x (List.mem_append_left _ hx), ?_⟩
        intro hdone k' hk'
        rcases List.mem_cons.1 hk' with rfl | hk'
        · exact .inr fun c hc => g4 c (List.mem_append_right _ hc)
        · exact g5 hdone k' hk'
    · rw [if_neg hgo]
      obtain ⟨g1, l', g2, g3, g4, g5⟩ := ih hr (fun k' hk' => hks k' (by simp [hk'])) h
      refine ⟨g1, l', g2, g3, g4, ?_⟩
      intro hdone k' hk'
      rcases List.mem_cons.1 hk' with rfl | hk'
      · exact .inl (hloop (by push Not at hgo; exact hgo))
      · exact g5 hdone k' hk'

theorem foldl_setMask_only {row v : Nat} (l : List Nat) (hr : row < s.m.statesCount) (hl : ∀ i ∈ l, i < P.masks) :
    OnlyMasks P row s (l.foldl (fun s i => s.setMask P row i v) s) := by
  induction l generalizing s with
  | nil => exact OnlyMasks.refl ..
  | cons i l ih =>
    have h1 := setMask_only s v hr (hl i (by simp))
    exact h1.trans (ih (by rw [h1.m]; exact hr) fun j hj => hl j (by simp [hj]))

theorem finishMasks_only {row ind : Nat} (hr : row < s.m.statesCount) : OnlyMasks P row s (s.finishMasks P row ind) := by
  unfold finishMasks
  split
  · exact OnlyMasks.refl ..
  · apply foldl_setMask_only _ hr
    intro i hi
    rw [List.mem_range'_1] at hi
    omega

theorem shortcutRow_only {chars : Nat → List Nat} {row : Nat} (h0 : P.masks = 0) : s.shortcutRow P chars row = s := by
  have hset : ∀ (cs : List Nat) (s : Multi) (ind : Nat), (s.setMasks P row ind cs).1 = s := by
    intro cs
    induction cs with
    | nil => intro s ind; rfl
    | cons c cs ih => intro s ind; unfold setMasks; rw [if_pos h0]; exact ih ..
  have hloop : ∀ (ks : List Nat) (s : Multi) (ind : Nat), (shortcutLoop P chars row ks s ind).1 = s := by
    intro ks
    induction ks with
    | nil => intro s ind; rfl
    | cons k ks ih =>
      intro s ind
      unfold shortcutLoop
      simp only
      split
      · split
        · rfl
        · rw [ih]; exact hset ..
      · exact ih ..
  unfold shortcutRow finishMasks
  simp only [if_pos h0, ite_self]
  exact hloop ..

/-- The masks of one row. -/
theorem shortcutRow_spec {chars : Nat → List Nat} {row : Nat} (h2 : P.masks = 2) (hr : row < s.m.statesCount)
    (hcs : ∀ k c, c ∈ chars k ↔ c < 256 ∧ s.get P (.letter c) = k)
    (hcore : Core P s T) :
    OnlyMasks P row s (s.shortcutRow P chars row) ∧ RowMasks P (s.shortcutRow P chars row) T row := by
  have hm : P.masks ≠ 0 := by omega
  have hn : row < T.n := by rw [← hcore.states]; exact hr
  unfold shortcutRow
  rw [if_neg hm]
  simp only
  have a1 := setMask_only s 2 hr (i := 0) (P := P) (by omega)
  have f1 : Filled P (s.setMask P row 0 2) row [] :=
    ⟨by simp, by simp, by simp, fun _ => setMask_val s hr (by omega) (by omega)⟩
  set s1 := s.setMask P row 0 2 with hs1
  have hr1 : row < s1.m.statesCount := by rw [a1.m]; exact hr
  obtain ⟨a2, l, f2, hlen, -, hdone⟩ := shortcutLoop_spec (s := s1) (chars := chars) hm hr1 (fun k c hc => ((hcs k c).1 hc).1)
    (fun k => T.δ row (k - P.headerSize) = row) (ks := List.range' P.headerSize s1.m.lettersCount) (by
      intro k hk
      rw [List.mem_range'_1, a1.m, hcore.letters] at hk
      have hok : Ok P s.m (.slot row k) := by
        refine ⟨hr, hk.1, ?_⟩
        have := rowSize_ge P s.m
        rw [hcore.letters] at this
        omega
      refine ⟨by rw [a1.m]; exact hok, ?_⟩
      rw [indexToState_congr a1.rest, a1.keep _ hok (by simp)]
      have hk' : k = P.headerSize + (k - P.headerSize) := by omega
      have hj := hcore.jump row hn (k - P.headerSize) (by omega)
      rw [← hk'] at hj
      rw [hj, go_diff hcore.fits hr (by rw [hcore.states]; exact hcore.wf.δ_lt row hn _ (by omega))]
      exact indexToState_inj) f1
  rw [List.length_nil] at a2 f2 hlen hdone
  generalize shortcutLoop P chars row (List.range' P.headerSize s1.m.lettersCount) s1 0 = r at a2 f2 hlen hdone
  obtain ⟨s2, ind, done⟩ := r
  simp only at a2 f2 hlen hdone ⊢
  subst hlen
  have hr2 : row < s2.m.statesCount := by rw [a2.m]; exact hr1
  have hll := f2.len
  cases done with
  | false =>
    simp only [Bool.false_eq_true, if_false, if_neg hm]
    have a3 := setMask_only s2 1 hr2 (i := 0) (P := P) (by omega)
    have v3 : MaskVal P (s2.setMask P row 0 1) row 0 1 := setMask_val s2 hr2 (by omega) (by omega)
    set s3 := s2.setMask P row 0 1
    have hr3 : row < s3.m.statesCount := by rw [a3.m]; exact hr2
    refine ⟨((a1.trans a2).trans a3).trans (finishMasks_only hr3), .inr (.inl ?_)⟩
    unfold finishMasks
    rw [if_neg hm]
    simp only
    generalize s3.get P _ = v
    have : ∀ (L : List Nat) (s : Multi), row < s.m.statesCount → (∀ i ∈ L, 0 < i ∧ i < P.masks) → MaskVal P s row 0 1 →
        MaskVal P (L.foldl (fun s i => s.setMask P row i v) s) row 0 1 := by
      intro L
      induction L with
      | nil => intro s _ _ h; exact h
      | cons i L ih =>
        intro s hs hL h
        have hi := hL i (by simp)
        exact ih _ (by rw [(setMask_only s v hs hi.2).m]; exact hs) (fun j hj => hL j (by simp [hj]))
          (setMask_other s v hs hi.2 (by omega) (by omega) h)
    apply this _ _ hr3 _ v3
    intro i hi
    rw [List.mem_range'_1] at hi
    split at hi <;> omega
  | true =>
    simp only [if_true]
    refine ⟨(a1.trans a2).trans (finishMasks_only hr2), ?_⟩
    have hbytes : ∀ c < 256, c ∉ l → T.step row c = row := by
      intro c hc hcl
      have hlet : IsLetter c := ⟨by omega, by omega⟩
      have hg := hcore.letter c hlet
      have hlt := hcore.wf.cls_lt c hlet
      have hmem : P.headerSize + T.cls c ∈ List.range' P.headerSize s1.m.lettersCount := by
        rw [List.mem_range'_1, a1.m, hcore.letters]; omega
      rcases hdone rfl _ hmem with h | h
      · rw [Nat.add_sub_cancel_left] at h; exact h
      · exact absurd (h c ((hcs _ c).2 ⟨hc, hg⟩)) hcl
    unfold finishMasks
    rw [if_neg hm]
    simp only
    rcases l with _ | ⟨a, _ | ⟨b, _ | ⟨c, l⟩⟩⟩
    · left
      refine ⟨?_, fun c hc => hbytes c hc (by simp)⟩
      have e : (List.range' 1 (P.masks - 1)) = [1] := by rw [h2]; rfl
      simp only [List.length_nil, if_true]
      rw [e, List.foldl_cons, List.foldl_nil]
      exact setMask_other s2 _ hr2 (by omega) (by omega) (by omega) (f2.none rfl)
    · right; right
      have v0 := f2.val 0 (by simp)
      simp only [List.getElem_cons_zero] at v0
      have hab := f2.byte a (by simp)
      refine ⟨a, a, hab, hab, ?_, ?_, fun c hc h1 _ => hbytes c hc (by simpa using h1)⟩
      all_goals
        simp only [List.length_cons, List.length_nil, Nat.zero_add, Nat.one_ne_zero, if_false]
        have e : (List.range' 1 (P.masks - 1)) = [1] := by rw [h2]; rfl
        rw [e, List.foldl_cons, List.foldl_nil]
      · exact setMask_other s2 _ hr2 (by omega) (by omega) (by omega) v0
      · rw [Nat.sub_self, v0 0 (by omega)]
        exact setMask_val s2 hr2 (by omega) (fillSizeT_lt a hab)
    · right; right
      have v0 := f2.val 0 (by simp)
      have v1 := f2.val 1 (by simp)
      simp only [List.getElem_cons_zero, List.getElem_cons_succ] at v0 v1
      refine ⟨a, b, f2.byte a (by simp), f2.byte b (by simp), ?_, ?_, fun c hc h1 h2 => hbytes c hc (by simp [h1, h2])⟩
      all_goals
        simp only [List.length_cons, List.length_nil]
        have e : (List.range' 2 (P.masks - 2)) = [] := by rw [h2]; rfl
        simp only [Nat.zero_add, Nat.reduceAdd, OfNat.ofNat_ne_zero, if_false]
        rw [e, List.foldl_nil]
      · exact v0
      · exact v1
    · simp only [List.length_cons] at hll; omega

theorem RowMasks.congr {s s' : Multi} {q : Nat} (h : RowMasks P s T q) (hs : ∀ i j, j < 4 → i < 2 → s'.get P (.mask q i j) = s.get P (.mask q i j)) :
    RowMasks P s' T q := by
  have key : ∀ i v, i < 2 → MaskVal P s q i v → MaskVal P s' q i v := fun i v hi hv j hj => (hs i j hj hi).trans (hv j hj)
  rcases h with ⟨h, h'⟩ | h | ⟨a, b, ha, hb, h1, h2, h3⟩
  · exact .inl ⟨key 0 _ (by omega) h, h'⟩
  · exact .inr (.inl (key 0 _ (by omega) h))
  · exact .inr (.inr ⟨a, b, ha, hb, key 0 _ (by omega) h1, key 1 _ (by omega) h2, h3⟩)

theorem Ok.of_letter {m : Locals} {c : Nat} (h : c < 264) : Ok P m (.letter c) := h

theorem Core.onlyMasks (h : Core P s T) {s' : Multi} (hrest : s'.rest = s.rest)
    (hkeep : ∀ c, Ok P s.m c → (∀ r i j, c ≠ .mask r i j) → s'.get P c = s.get P c) : Core P s' T := by
  obtain ⟨hm, hb, he⟩ := m_of_rest hrest
  have hix := fun q => indexToState_congr (P := P) hrest q
  refine ⟨h.wf, by rw [hm, hb]; exact h.fits, by rw [hm]; exact h.states, by rw [hm]; exact h.letters,
    by rw [hm]; exact h.regexps, by rw [hm, hix]; exact h.initial, ?_, ?_, ?_, ?_⟩
  · intro c hc
    rw [hkeep _ (Ok.of_letter hc.1) (by simp)]; exact h.letter c hc
  · intro q hq k hk
    rw [hix, hix, hkeep _ ?_ (by simp)]
    · exact h.jump q hq k hk
    · refine ⟨by rw [h.states]; exact hq, by omega, ?_⟩
      have := rowSize_ge P s.m
      rw [h.letters] at this
      omega
  · intro q hq
    rw [hkeep _ (show q < _ by rw [h.states]; exact hq) (by simp)]; exact h.flags q hq
  · intro q hq
    have hf := h.finals q hq
    have hi : s'.get P (.finalIndex q) = s.get P (.finalIndex q) := hkeep _ (show q < _ by rw [h.states]; exact hq) (by simp)
    have hb := hf.bound
    refine ⟨by rw [hi, hm]; exact hb, ?_, ?_⟩
    · intro i hlt
      rw [hi, hkeep _ (show _ < _ by omega) (by simp)]; exact hf.entry i hlt
    · rw [hi, hkeep _ (show _ < _ by omega) (by simp)]; exact hf.stop

/-- `BuildShortcuts` turns a scanner without masks into a complete one. -/
theorem buildShortcuts_spec (hP : P.Real) (h : Core P s T) :
    Repr P (s.buildShortcuts P) T ∧ (s.buildShortcuts P).rest = s.rest := by
  unfold buildShortcuts
  simp only
  set chars := fun k => (List.range 256).filter fun ch => s.get P (.letter ch) == k with hch
  rcases hP with h0 | h2
  · have : (List.range s.m.statesCount).foldl (fun s row => s.shortcutRow P chars row) s = s := by
      generalize List.range s.m.statesCount = l
      induction l with
      | nil => rfl
      | cons x l ih => rw [List.foldl_cons, shortcutRow_only h0]; exact ih
    rw [this]
    exact ⟨⟨h, fun hn => absurd h0 hn⟩, rfl⟩
  · suffices key : ∀ n ≤ s.m.statesCount,
        let s' := (List.range n).foldl (fun s row => s.shortcutRow P chars row) s
        s'.rest = s.rest ∧ (∀ c, Ok P s.m c → (∀ r i j, c ≠ .mask r i j) → s'.get P c = s.get P c) ∧
        ∀ q < n, RowMasks P s' T q by
      obtain ⟨k1, k2, k3⟩ := key _ le_rfl
      refine ⟨⟨h.onlyMasks k1 k2, fun _ q hq => k3 q (by rw [h.states]; exact hq)⟩, k1⟩
    intro n hn
    induction n with
    | zero => exact ⟨rfl, fun _ _ _ => rfl, by simp⟩
    | succ n ih =>
      obtain ⟨k1, k2, k3⟩ := ih (by omega)
      rw [List.range_succ, List.foldl_append, List.foldl_cons, List.foldl_nil]
      set s' := (List.range n).foldl (fun s row => s.shortcutRow P chars row) s
      have hm := (m_of_rest k1).1
      have hcs : ∀ k c, c ∈ chars k ↔ c < 256 ∧ s'.get P (.letter c) = k := by
        intro k c
        simp only [hch, List.mem_filter, List.mem_range, beq_iff_eq]
        constructor
        · rintro ⟨a, b⟩
          exact ⟨a, by rw [k2 _ (Ok.of_letter (by omega)) (by simp)]; exact b⟩
        · rintro ⟨a, b⟩
          rw [k2 _ (Ok.of_letter (by omega)) (by simp)] at b
          exact ⟨a, b⟩
      obtain ⟨o, r⟩ := shortcutRow_spec (s := s') (row := n) h2 (by rw [hm]; omega) hcs (h.onlyMasks k1 k2)
      refine ⟨o.rest.trans k1, ?_, ?_⟩
      · intro c hc hn'
        rw [o.keep c (by rw [hm]; exact hc) (hn' n), k2 c hc hn']
      · intro q hq
        by_cases hqn : q = n
        · subst hqn; exact r
        · apply (k3 q (by omega)).congr
          intro i j hj hi
          apply o.keep
          · rw [hm]; exact ⟨by omega, by omega, hj⟩
          · simp [hqn]

end Multi
end Pire
