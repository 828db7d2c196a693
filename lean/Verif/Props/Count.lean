import Verif.Proofs.CountIo
import Verif.Props.Scanner

/-!
# Counting scanners: property C47

`CountingScanner`, `AdvancedCountingScanner` and `NoGlueLimitCountingScanner` (pire/extra/count.h) run a deterministic machine
that produces a number (action) on every character. What the numbers mean for the counter is in `Spec/Count.lean`
(`basicOps`, `advancedOps`), together with what a counter has to show (`MaxRun`). How the constructors make the machine out of the two
regular expressions is another matter (C55, C56).
-/

namespace Pire
namespace Count

open Spec Loaded

/-- A `CountingScanner` made by `BuildScanner` from a determined automaton with outputs (the end of its constructor, count.cpp:829-833). -/
def MadeBasic (s : Loaded) (M : Machine) : Prop :=
  ∃ (f : Fsm) (base : Nat), s = compileCanonized 0 1 remapBasic base f ∧ M = f.machine ∧ f.Det ∧ f.letters.size ≤ 256 ∧
    f.size * (f.letters.size * 8) ≤ 2 ^ 31 ∧ base % 8 = 0 ∧ base ≤ 2 ^ 63

/-- A table that can be put into an advanced counting scanner: letters of a class lead to the same state with the same action. -/
def Fillable (M : Machine) (letters : Partition) (base : Nat) : Prop :=
  letters.WF ∧ Multi.AllLetters letters ∧ letters.size ≤ 256 ∧ M.n * (letters.size * 8) ≤ 2 ^ 31 ∧ base % 8 = 0 ∧ base ≤ 2 ^ 63 ∧
  M.q0 < M.n ∧ (∀ q < M.n, ∀ c, IsLetter c → M.step q c < M.n) ∧
  ∀ q < M.n, ∀ e ∈ letters.set, ∀ c ∈ e.members, M.step q c = M.step q e.rep ∧ M.out q c = M.out q e.rep

/-- An `AdvancedCountingScanner` filled in from a table (the end of `MakeAdvancedCountingScanner`, count.cpp:848-861). -/
def MadeAdvanced (s : Loaded) (M : Machine) : Prop :=
  ∃ (letters : Partition) (base : Nat), s = fillTable remapAdvanced base M.n M.q0 letters M.step M.out ∧ Fillable M letters base

/-- How a counting scanner comes into being: default-constructed; made of one regexp; copied; glued; saved and loaded, or mapped from where it
has been saved. `Ms` = the machines of its regexps; the flag: does it own its memory. The addresses memory gets allocated at, the bytes of the padding and
whatever follows in the stream or in memory are arbitrary. -/
inductive Built (made : Loaded → Machine → Prop) : Bool → Loaded → List Machine → Prop
  | default {base : Nat} {s : Loaded} : Loaded.null base = some s → base % 8 = 0 → base ≤ 2 ^ 63 → Built made false s []
  | made {s : Loaded} {M : Machine} : made s M → Built made true s [M]
  | copy {own : Bool} {s : Loaded} {Ms : List Machine} (base : Nat) : Built made own s Ms → base % 8 = 0 → base ≤ 2 ^ 63 →
      Built made own (copyCtor own base s) Ms
  | glue {oa ob : Bool} {a b null : Loaded} {Ms Ns : List Machine} (base base' maxSize : Nat) : Built made oa a Ms → Built made ob b Ns → null.empty = true →
      (Count.glue null base base' a b maxSize).empty = false → (glueLetters a b).size ≤ 256 → glueLimit maxSize < 2 ^ 20 →
      base % 8 = 0 → base ≤ 2 ^ 63 → base' % 8 = 0 → base' ≤ 2 ^ 63 → Built made true (Count.glue null base base' a b maxSize) (Ms ++ Ns)
  | load {own : Bool} {s s' : Loaded} {Ms : List Machine} {base pad type : Nat} {rest rest' : Bytes} : Built made own s Ms → s.empty = false →
      base % 8 = 0 → base ≤ 2 ^ 63 → Loaded.load base (s.save 4 pad ++ rest) = some ((s', type), rest') → Built made true s' Ms
  | map {own : Bool} {s s' : Loaded} {Ms : List Machine} {mem : Mem} {ptr size pad type p k : Nat} : Built made own s Ms → s.empty = false →
      ptr % 8 = 0 → ptr + 8 * size + 16 < 2 ^ 64 → (s.save 4 pad).length ≤ size → Multi.memBytes mem ptr (s.save 4 pad).length = s.save 4 pad →
      Loaded.mmap mem ptr size = .ok s' type p k → Built made false s' Ms

/-- See `Built`. (The last two conditions of `glue`: neither the number of regexps nor the table of actions outgrow 32 bits.) -/
inductive BuiltNoLimit : Bool → NoLimit → List Machine → Prop
  | default {base : Nat} {s : Loaded} : Loaded.null base = some s → base % 8 = 0 → base ≤ 2 ^ 63 → BuiltNoLimit false ⟨s, none, false⟩ []
  | made {M : Machine} {letters : Partition} {base : Nat} : Fillable M letters base →
      BuiltNoLimit true ⟨fillTable id base M.n M.q0 letters M.step M.out, none, false⟩ [M]
  | copy {own : Bool} {s : NoLimit} {Ms : List Machine} (base : Nat) : BuiltNoLimit own s Ms → base % 8 = 0 → base ≤ 2 ^ 63 →
      BuiltNoLimit own (s.copyCtor own base) Ms
  | glue {oa ob : Bool} {a b g : NoLimit} {null : Loaded} {Ms Ns : List Machine} (base base' maxSize : Nat) : BuiltNoLimit oa a Ms → BuiltNoLimit ob b Ns →
      null.empty = true →
      glueNoLimit null base base' a b maxSize = some g → g.base.empty = false → (glueLetters a.base b.base).size ≤ 256 → glueLimit maxSize < 2 ^ 20 →
      base % 8 = 0 → base ≤ 2 ^ 63 → base' % 8 = 0 → base' ≤ 2 ^ 63 →
      Ms.length + Ns.length < 2 ^ 32 → (∀ l, g.actions = some l → l.length < 2 ^ 32) → BuiltNoLimit true g (Ms ++ Ns)
  | load {own : Bool} {s self s' : NoLimit} {Ms : List Machine} {base pad : Nat} {bytes rest rest' : Bytes} : BuiltNoLimit own s Ms → s.base.empty = false →
      self.compat = false → base % 8 = 0 → base ≤ 2 ^ 63 → s.save pad = some bytes → self.load base (bytes ++ rest) = some (s', rest') → BuiltNoLimit true s' Ms
  | map {own : Bool} {s s' : NoLimit} {Ms : List Machine} {mem : Mem} {ptr size pad p : Nat} {bytes : Bytes} : BuiltNoLimit own s Ms → s.base.empty = false →
      ptr % 8 = 0 → ptr + 8 * size + 16 < 2 ^ 64 → s.save pad = some bytes → bytes.length ≤ size → Multi.memBytes mem ptr bytes.length = bytes →
      NoLimit.mmap mem ptr size = .ok s' p → BuiltNoLimit false s' Ms

/-- The state (address of a row) after a word. -/
def walk (s : Loaded) (w : List Nat) : Nat := w.foldl (fun st c => (s.next st c).1) s.initial

/-- There are more than `n + 1` pairs of states the two scanners get into together. -/
def TooManyPairs (a b : Loaded) (n : Nat) : Prop :=
  ∃ ws : List (List Nat), (∀ w ∈ ws, IsWord w) ∧ (ws.map fun w => (walk a w, walk b w)).Nodup ∧ ws.length = n + 2

end Count

namespace Props

open Spec Loaded Count

theorem repr_bufSize {s : Loaded} {T : ATbl} (h : Repr s T) {base : Nat} (hb : base ≤ 2 ^ 63) : base + bufSize s.statesCount s.lettersCount ≤ 2 ^ 64 := by
  have hlim := h.limit
  have hst := h.states
  have hpos := h.pos
  have hM : MaxChar = 264 := rfl
  have : T.n * 1 ≤ T.n * (s.lettersCount * 8) := Nat.mul_le_mul_left _ (by omega)
  unfold bufSize
  rw [hst, hM]
  omega

theorem small_bufSize {n l base : Nat} (h : n * (l * 8) ≤ 2 ^ 31) (hl : 0 < l) (hb : base ≤ 2 ^ 63) : base + bufSize n l ≤ 2 ^ 64 := by
  have hM : MaxChar = 264 := rfl
  have : n * 1 ≤ n * (l * 8) := Nat.mul_le_mul_left _ (by omega)
  unfold bufSize
  rw [hM]
  omega

theorem letters_pos {P : Partition} (hw : P.WF) (ha : Multi.AllLetters P) : 0 < P.size := by
  obtain ⟨r, hr⟩ := Option.isSome_iff_exists.1 ((ha 0).2 ⟨by norm_num, by simp⟩)
  obtain ⟨e, he, _, hm⟩ := (hw.inv_iff _ _).1 hr
  exact lt_of_le_of_lt (Nat.zero_le _) (hw.idx_lt e he)

theorem facts_of_built {made : Loaded → Machine → Prop} {g : Bool → Bool → List Op} {leafOps : Nat → List Op}
    (hm : ∀ s M, made s M → Facts g leafOps true s [M]) {own : Bool} {s : Loaded} {Ms : List Machine} (h : Built made own s Ms) : Facts g leafOps own s Ms := by
  induction h with
  | default h ha hb => exact (facts_null h ha hb).1
  | made h => exact hm _ _ h
  | copy base _ ha hb ih =>
    obtain ⟨T, b, h1, -⟩ := id ih
    exact ih.copy ha (repr_bufSize h1.repr hb)
  | glue base base' maxSize _ _ hn he hP hlim h1 h2 h3 h4 iha ihb => exact iha.glue ihb hn he hP h1 h2 h3 h4 hlim
  | @load own s s' Ms base pad type rest rest' _ he ha hb hl ih =>
    obtain ⟨T, b, h1, -⟩ := id ih
    obtain ⟨s'', l1, l2⟩ := ih.load he (pad := pad) ha (repr_bufSize h1.repr hb) rest
    rw [l1] at hl
    cases hl
    exact l2
  | map _ he ha hs hlen hmem hl ih =>
    obtain ⟨s'', k, l1, l2⟩ := ih.map he ha hs hlen hmem
    rw [l1] at hl
    cases hl
    exact l2

theorem facts_made_basic (s : Loaded) (M : Machine) (h : MadeBasic s M) : Facts gBasic basicOps true s [M] := by
  obtain ⟨f, base, rfl, rfl, hd, hP, hlim, ha, hb⟩ := h
  exact leaf_basic hd hP ha (small_bufSize hlim (letters_pos hd.wf.let_wf hd.all) hb) hlim

theorem facts_made_advanced (s : Loaded) (M : Machine) (h : MadeAdvanced s M) : Facts gAdvanced advancedOps true s [M] := by
  obtain ⟨letters, base, rfl, hw, hal, hP, hlim, ha, hb, h0, hst, hcl⟩ := h
  exact leaf_advanced hw hal hP h0 ha (small_bufSize hlim (letters_pos hw hal) hb) hlim hst hcl

theorem facts_of_built_nl {own : Bool} {s : NoLimit} {Ms : List Machine} (h : BuiltNoLimit own s Ms) : FactsNL own s Ms := by
  induction h with
  | default h ha hb => exact facts_null_nl h ha hb
  | made h =>
    obtain ⟨hw, hal, hP, hlim, ha, hb, h0, hst, hcl⟩ := h
    exact leaf_nl hw hal hP h0 ha (small_bufSize hlim (letters_pos hw hal) hb) hlim hst hcl
  | copy base _ ha hb ih =>
    obtain ⟨T, D, b, h1, -⟩ := id ih
    exact ih.copy ha (repr_bufSize h1.repr hb)
  | glue base base' maxSize _ _ hn hg he hP hlim h1 h2 h3 h4 h5 h6 iha ihb => exact iha.glue ihb hn hg he h5 h6 hP h1 h2 h3 h4 hlim
  | @load own s self s' Ms base pad bytes rest rest' _ he hc ha hb hsv hl ih =>
    obtain ⟨T, D, b, h1, -⟩ := id ih
    obtain ⟨bs, s'', l1, l2, -, l3⟩ := ih.load he hc ha (repr_bufSize h1.repr hb) rest pad
    rw [hsv] at l1
    cases l1
    rw [l2] at hl
    cases hl
    exact l3
  | map _ he ha hs hsv hlen hmem hl ih =>
    obtain ⟨s'', l1, l2⟩ := ih.map he hsv ha hs hlen hmem
    rw [l1] at hl
    cases hl
    exact l2

/-- **`CountingScanner`.** However it has been assembled, the scanner has one counter per regexp, in order; after any text (short enough for 32-bit
counters) each counter shows the longest series of increments without a reset that the machine of its own regexp produces on that text. -/
theorem C47_basic_counts {own : Bool} {s : Loaded} {Ms : List Machine} (h : Built MadeBasic own s Ms) :
    s.reCount = Ms.length ∧ ∀ w, IsWord w → 2 * w.length < 2 ^ 32 → ∀ i M, Ms[i]? = some M →
      MaxRun ((M.outs M.q0 w).flatMap basicOps) (((scn takeBasic s).after (scn takeBasic s).initial w).result i) := by
  obtain ⟨T, b, h1, -, h3, h4⟩ := facts_of_built facts_made_basic h
  refine ⟨h3, fun w hw hl i M hM => ?_⟩
  have hi : i < 16 := by
    have := (List.getElem?_eq_some_iff.1 hM).1
    have := h1.count
    omega
  rw [← h4 w hw i M hM]
  exact run_result (ops := fun i a => gBasic (a.testBit i) (a.testBit (16 + i))) takeBasic_loc takeBasic_inv h1.repr hw hl hi

/-- **`AdvancedCountingScanner`**, see `C47_basic_counts`. -/
theorem C47_advanced_counts {own : Bool} {s : Loaded} {Ms : List Machine} (h : Built MadeAdvanced own s Ms) :
    s.reCount = Ms.length ∧ ∀ w, IsWord w → 2 * w.length < 2 ^ 32 → ∀ i M, Ms[i]? = some M →
      MaxRun ((M.outs M.q0 w).flatMap advancedOps) (((scn takeAdvanced s).after (scn takeAdvanced s).initial w).result i) := by
  obtain ⟨T, b, h1, -, h3, h4⟩ := facts_of_built facts_made_advanced h
  refine ⟨h3, fun w hw hl i M hM => ?_⟩
  have hi : i < 16 := by
    have := (List.getElem?_eq_some_iff.1 hM).1
    have := h1.count
    omega
  rw [← h4 w hw i M hM]
  exact run_result (ops := fun i a => gAdvanced (a.testBit i) (a.testBit (16 + i))) takeAdvanced_loc takeAdvanced_inv h1.repr hw hl hi

/-- **`NoGlueLimitCountingScanner`**, see `C47_basic_counts`; moreover nothing is read or written outside of the arrays. -/
theorem C47_nolimit_counts {own : Bool} {s : NoLimit} {Ms : List Machine} (h : BuiltNoLimit own s Ms) :
    s.base.reCount = Ms.length ∧ ∀ w, IsWord w → 2 * w.length < 2 ^ 32 →
      ∃ st, (scnNoLimit s).after (scnNoLimit s).initial w = some st ∧ ∀ i M, Ms[i]? = some M →
        MaxRun ((M.outs M.q0 w).flatMap advancedOps) (st.result i) := by
  have hf := facts_of_built_nl h
  exact ⟨by obtain ⟨T, D, b, -, -, -, h3, -⟩ := hf; exact h3, fun w hw hl => hf.result hw hl⟩

/-! ### When gluing succeeds -/

theorem walk_snoc (s : Loaded) (w : List Nat) (c : Nat) : walk s (w ++ [c]) = (s.next (walk s w) c).1 := by
  unfold walk; rw [List.foldl_append]; rfl

theorem reach_word {a b : Loaded} {s : Nat × Nat} (h : (glueTask a b).Reach s) : ∃ w, IsWord w ∧ s = (walk a w, walk b w) := by
  induction h with
  | init => exact ⟨[], (by intro x hx; cases hx), rfl⟩
  | @step s e _ _ he ih =>
    obtain ⟨w, hw, rfl⟩ := ih
    have hm := glue_letter he ((glueLetters_wf a b).rep_mem e he)
    refine ⟨w ++ [e.rep], ?_, by rw [walk_snoc, walk_snoc]; rfl⟩
    intro x hx
    rcases List.mem_append.1 hx with h | h
    · exact hw x h
    · rw [List.mem_singleton.1 h]; exact hm

theorem word_reach {a b : Loaded} {w : List Nat} (hw : IsWord w) : (glueTask a b).Reach (walk a w, walk b w) := by
  induction w using List.reverseRecOn with
  | nil => exact .init
  | append_singleton w c ih =>
    have hr := ih fun x hx => hw x (by simp [hx])
    obtain ⟨e, he, hc⟩ := glue_class_of_letter (a := a) (b := b) (hw c (by simp))
    obtain ⟨k1, k2⟩ := glue_class he hc
    rw [walk_snoc, walk_snoc, next_letter a k1, next_letter b k2]
    exact .step hr rfl he

theorem tooMany_pairs (a b : Loaded) (n : Nat) : (glueTask a b).TooMany n ↔ TooManyPairs a b n := by
  constructor
  · rintro ⟨l, h1, h2, h3⟩
    choose! f hf using fun s (hs : s ∈ l) => reach_word (h2 s hs)
    refine ⟨l.map f, ?_, ?_, by rw [List.length_map, h3]⟩
    · intro w hw
      obtain ⟨s, hs, rfl⟩ := List.mem_map.1 hw
      exact (hf s hs).1
    · have : ((l.map f).map fun w => (walk a w, walk b w)) = l := by
        rw [List.map_map]
        conv_rhs => rw [← List.map_id l]
        exact List.map_congr_left fun s hs => (hf s hs).2.symm
      rw [this]; exact h1
  · rintro ⟨ws, h1, h2, h3⟩
    refine ⟨ws.map fun w => (walk a w, walk b w), h2, ?_, by rw [List.length_map, h3]⟩
    intro s hs
    obtain ⟨w, hw, rfl⟩ := List.mem_map.1 hs
    exact word_reach (h1 w hw)

/-- `Glue` returns the empty scanner exactly when there are more than 16 regexps together, or more pairs of states than allowed
(`maxSize`, 250000 by default). -/
theorem C47_glue_fails_iff (null : Loaded) (hn : null.empty = true) (base base' : Nat) (a b : Loaded) (maxSize : Nat) :
    (Count.glue null base base' a b maxSize).empty = true ↔ 16 < a.reCount + b.reCount ∨ TooManyPairs a b (glueLimit maxSize) := by
  rw [← tooMany_pairs]
  constructor
  · intro h
    by_contra hc
    rw [not_or] at hc
    rw [glue_eq, if_neg hc.1] at h
    cases hr : (glueTask a b).run (glueLimit maxSize) with
    | none => exact hc.2 ((DTask.run_spec (t := glueTask a b) (glueLetters_wf a b) (glueLimit maxSize)).2.1 hr)
    | some x =>
      obtain ⟨states, conns⟩ := x
      rw [hr] at h
      simp only at h
      unfold copyCtor at h
      rw [if_pos rfl, show ∀ n l r i b m, (markup n l r i b m).empty = false from fun _ _ _ _ _ _ => rfl] at h
      cases h
  · intro h
    cases e : (Count.glue null base base' a b maxSize).empty with
    | true => rfl
    | false =>
      obtain ⟨h1, h2⟩ := glue_empty hn e
      rcases h with h | h
      · omega
      · exact absurd h h2

/-- If the product of the numbers of states is within the limit, there are not too many pairs. -/
theorem C47_small_product {a b : Loaded} {Ta Tb : ATbl} (ha : Repr a Ta) (hb : Repr b Tb) {n : Nat} (h : a.statesCount * b.statesCount ≤ n + 1) :
    ¬ TooManyPairs a b n := by
  rw [← tooMany_pairs]
  rintro ⟨l, h1, h2, h3⟩
  have hsub : l ⊆ (List.range Ta.n ×ˢ List.range Tb.n).map fun x => (a.indexToState x.1, b.indexToState x.2) := by
    intro s hs
    obtain ⟨q, hq, p, hp, rfl⟩ := glue_reach ha hb (h2 s hs)
    exact List.mem_map.2 ⟨(q, p), List.mem_product.2 ⟨List.mem_range.2 hq, List.mem_range.2 hp⟩, rfl⟩
  have := (h1.subperm hsub).length_le
  rw [List.length_map, List.length_product, List.length_range, List.length_range, h3, ← ha.states, ← hb.states] at this
  omega

/-- The classes of letters of the product: at most the product of the numbers of classes. -/
theorem C47_letters_product {a b : Loaded} {Ta Tb : ATbl} (ha : Repr a Ta) (hb : Repr b Tb) :
    (glueLetters a b).size ≤ a.lettersCount * b.lettersCount := by
  have hw := glueLetters_wf a b
  have hc := (glueLetters_classifies a b).2
  have hnd : ((glueLetters a b).set.map fun e => (a.letter e.rep, b.letter e.rep)).Nodup := by
    refine List.Nodup.map_on ?_ (hw.sorted.imp fun h he => absurd (congrArg PClass.rep he) (ne_of_lt h))
    intro e he e' he' h
    simp only [Prod.mk.injEq] at h
    have := hc e he e' he' (by unfold lettersEq; simp [h.1, h.2])
    exact hw.class_unique' he he' (hw.rep_mem e he) (this ▸ hw.rep_mem e' he')
  have hsub : ((glueLetters a b).set.map fun e => (a.letter e.rep, b.letter e.rep)) ⊆ List.range a.lettersCount ×ˢ List.range b.lettersCount := by
    intro x hx
    obtain ⟨e, he, rfl⟩ := List.mem_map.1 hx
    have hl := glue_letter he (hw.rep_mem e he)
    exact List.mem_product.2 ⟨List.mem_range.2 (ha.letter _ hl), List.mem_range.2 (hb.letter _ hl)⟩
  have := (hnd.subperm hsub).length_le
  rw [List.length_map, List.length_product, List.length_range, List.length_range] at this
  exact this

/-! ### The hypotheses can be met -/

/-- A machine that counts the longest series of the character `a`. -/
def seriesOf (a : Nat) : Machine where
  n := 1
  q0 := 0
  step := fun _ _ => 0
  out := fun _ c => if c = a then 1 else 2

/-- Two classes of letters: `a` and the rest. -/
@[irreducible] def seriesLetters (a : Nat) : Partition :=
  ((List.range MaxChar).filter (· ≠ Epsilon)).foldl (fun p c => p.append (fun c d => (c == a) == (d == a)) c) .empty

theorem series_fillable (a : Nat) : Fillable (seriesOf a) (seriesLetters a) 0 ∧ (seriesLetters a).size ≤ 2 := by
  have hw : (seriesLetters a).WF := by
    unfold seriesLetters
    exact Partition.WF.foldl_append Partition.WF.empty Multi.glueLetters_list.1 fun _ _ => rfl
  have hall : Multi.AllLetters (seriesLetters a) := by
    intro c
    unfold seriesLetters
    rw [Partition.inv_foldl_isSome, Multi.glueLetters_list.2]
    simp [Partition.empty]
  have hcl : (seriesLetters a).Classifies (fun c d => (c == a) == (d == a)) := by
    unfold seriesLetters
    apply Partition.Classifies.foldl_append Partition.WF.empty _ Multi.glueLetters_list.1 fun _ _ => rfl
    · intro c; simp
    · intro c d h
      simp only [beq_iff_eq] at h ⊢
      exact h.symm
    · constructor
      · intro c r h; cases h
      · intro e he; cases he
  have hsz : (seriesLetters a).size ≤ 2 := by
    have hnd : ((seriesLetters a).set.map fun e => (e.rep == a)).Nodup := by
      refine List.Nodup.map_on ?_ (hw.sorted.imp fun h he => absurd (congrArg PClass.rep he) (ne_of_lt h))
      intro e he e' he' h
      have := hcl.2 e he e' he' (by simp [h])
      exact hw.class_unique' he he' (hw.rep_mem e he) (this ▸ hw.rep_mem e' he')
    have := (hnd.subperm (l₂ := [true, false]) (by intro x _; cases x <;> simp)).length_le
    rw [List.length_map] at this
    exact this
  refine ⟨⟨hw, hall, le_trans hsz (by norm_num), ?_, by norm_num, by norm_num, Nat.zero_lt_one, fun _ _ _ _ => Nat.zero_lt_one, ?_⟩, hsz⟩
  · show 1 * ((seriesLetters a).size * 8) ≤ 2 ^ 31
    omega
  · intro q _ e he c hc
    refine ⟨rfl, ?_⟩
    have := hcl.1 c e.rep (hw.inv_of_mem he hc)
    simp only [beq_iff_eq] at this
    unfold seriesOf
    simp only
    by_cases h1 : c = a <;> by_cases h2 : e.rep = a <;> simp_all

/-- The scanner of `seriesOf a`. -/
@[irreducible] def series (remap : Nat → Nat) (a : Nat) : Loaded := fillTable remap 0 1 0 (seriesLetters a) (seriesOf a).step (seriesOf a).out

theorem series_made (a : Nat) : MadeAdvanced (series remapAdvanced a) (seriesOf a) :=
  ⟨seriesLetters a, 0, by unfold series; rfl, (series_fillable a).1⟩

theorem series_repr (remap : Nat → Nat) (a : Nat) : (∃ T, Repr (series remap a) T) ∧ (series remap a).lettersCount ≤ 2 ∧
    (series remap a).statesCount = 1 ∧ (series remap a).reCount = 1 := by
  obtain ⟨⟨hw, hal, hP, hlim, ha, hb, h0, hst, hcl⟩, hsz⟩ := series_fillable a
  obtain ⟨h1, h2, h3, h4⟩ := fillTable_repr (remap := remap) hw hal hP h0 ha (small_bufSize hlim (letters_pos hw hal) hb) hlim hst hcl
  have e : series remap a = fillTable remap 0 (seriesOf a).n (seriesOf a).q0 (seriesLetters a) (seriesOf a).step (seriesOf a).out := by unfold series; rfl
  rw [e]
  refine ⟨⟨_, h1⟩, ?_, h1.states, by unfold Loaded.reCount; rw [h3, h2]; rfl⟩
  rw [h4.lettersCount, show ∀ n l r i b m, (markup n l r i b m).lettersCount = l from fun _ _ _ _ _ _ => rfl]
  exact hsz

theorem series_pairs (remap : Nat → Nat) (a b : Nat) :
    (glueLetters (series remap a) (series remap b)).size ≤ 256 ∧ ¬ TooManyPairs (series remap a) (series remap b) (glueLimit 0) := by
  obtain ⟨⟨T, hT⟩, l1, s1, -⟩ := series_repr remap a
  obtain ⟨⟨T', hT'⟩, l2, s2, -⟩ := series_repr remap b
  refine ⟨?_, C47_small_product hT hT' (by rw [s1, s2]; unfold glueLimit; decide)⟩
  have h1 := C47_letters_product hT hT'
  have h2 : (series remap a).lettersCount * (series remap b).lettersCount ≤ 2 * 2 := Nat.mul_le_mul l1 l2
  omega

theorem null_exists : ∃ s, Loaded.null 0 = some s := by
  obtain ⟨f, hf⟩ := canonize_small Fsm.Good.makeFalse (show Fsm.makeFalse.size ≤ 17 by decide)
  exact ⟨_, by unfold Loaded.null; rw [hf]; rfl⟩

/-- Two regexps glued. -/
theorem glued_example : ∃ s, Built MadeAdvanced true s [seriesOf 97, seriesOf 98] ∧ s.empty = false := by
  obtain ⟨null, hn⟩ := null_exists
  have hne := (facts_null (g := gBasic) (leafOps := basicOps) hn (by norm_num) (by norm_num)).2
  obtain ⟨h1, h2⟩ := series_pairs remapAdvanced 97 98
  have he : (Count.glue null 0 0 (series remapAdvanced 97) (series remapAdvanced 98) 0).empty = false := by
    rw [← Bool.not_eq_true, C47_glue_fails_iff null hne, not_or]
    refine ⟨?_, h2⟩
    rw [(series_repr remapAdvanced 97).2.2.2, (series_repr remapAdvanced 98).2.2.2]
    norm_num
  refine ⟨_, Built.glue 0 0 0 (.made (series_made 97)) (.made (series_made 98)) hne he h1 (by unfold glueLimit; decide) ?_ ?_ ?_ ?_, he⟩
  all_goals norm_num

/-- Its counters show the longest series of `a` and of `b`; e.g. 2 and 3 for "aababbba". -/
example : MaxRun (((seriesOf 97).outs 0 [97, 97, 98, 97, 98, 98, 98, 97]).flatMap advancedOps) 2 ∧
    MaxRun (((seriesOf 98).outs 0 [97, 97, 98, 97, 98, 98, 98, 97]).flatMap advancedOps) 3 := by
  constructor
  · exact (ops_spec _).2
  · exact (ops_spec _).2

/-- The same without a limit on the number of regexps, and a copy. -/
example : ∃ s, BuiltNoLimit true s [seriesOf 97] :=
  ⟨_, .copy 16 (.made (series_fillable 97).1) (by norm_num) (by norm_num)⟩

/-- A `CountingScanner` that increments its counter on every character. -/
example : ∃ s M, Built MadeBasic true s [M] ∧ ∀ w, (M.outs M.q0 w).flatMap basicOps = w.map fun _ => .inc := by
  obtain ⟨f, hf⟩ := canonize_small Fsm.Good.makeFalse (show Fsm.makeFalse.size ≤ 17 by decide)
  have hd := (Fsm.canonize_spec Fsm.Good.makeFalse hf).1
  have hl := Fsm.null_letters hf
  have hsz := Fsm.canonize_size Fsm.Good.makeFalse hf
  rw [if_neg (by decide), if_neg (by decide)] at hsz
  obtain ⟨g, hg⟩ : ∃ g : Fsm, g = { f with outputs := fun _ => some fun _ => some 3 } := ⟨_, rfl⟩
  have hd' : g.Det := by subst hg; exact ⟨⟨hd.wf.1, hd.wf.2, hd.wf.3, hd.wf.4, hd.wf.5⟩, hd.flag, hd.all, hd.total, hd.keys⟩
  have h1 : g.letters.size ≤ 1 := by rw [hg]; exact hl
  have h2 : g.size ≤ 1000000 := by subst hg; show f.size ≤ 1000000; omega
  refine ⟨_, g.machine, .made ⟨g, 0, rfl, rfl, hd', by omega, ?_, by norm_num, by norm_num⟩, ?_⟩
  · calc g.size * (g.letters.size * 8) ≤ 1000000 * (1 * 8) := Nat.mul_le_mul h2 (by omega)
      _ ≤ 2 ^ 31 := by norm_num
  · intro w
    have : ∀ q, (g.machine.outs q w).flatMap basicOps = w.map fun _ => .inc := by
      induction w with
      | nil => intro q; rfl
      | cons c w ih =>
        intro q
        rw [Machine.outs, List.flatMap_cons, ih, List.map_cons]
        have : g.machine.out q c = 3 := by subst hg; rfl
        rw [this]; rfl
    exact this _

/-! ### Limits -/

/-- The counters are 32-bit numbers: after 2^32 increments without a reset a counter shows 0. The bound on the length of the text is needed. -/
theorem C47_counter_wraps (s : Count.State) (h : s.current 0 = 2 ^ 32 - 1) (h' : s.total 0 = 0) : (takeAdvanced s 1).result 0 = 0 := by
  unfold takeAdvanced performIncrement State.result
  simp [incPerform, Loaded.MaxReCount, resetMask, incrementMask, h, h']

/-- A `NoGlueLimitCountingScanner` loaded from a file of an `AdvancedCountingScanner` interprets actions as masks when run, but
when glued it does not: the action that increments the second counter is taken for a reset of the first one. -/
theorem C47_compat_glue_wrong (b : Loaded) (hb : b.reCount = 2) (st : Count.State) (h : st.current 0 < 2 ^ 32 - 1 ∧ st.current 1 < 2 ^ 32 - 1) :
    ((NoLimit.mk b none true).take st 2).map (fun s => (s.current 0, s.current 1)) = some (st.current 0, st.current 1 + 1) ∧
    (NoLimit.mk b none true).getActions 2 0 = some ([0], []) := by
  constructor
  · unfold NoLimit.take
    have h2 : (st.current 1 + 1) % 2 ^ 32 = st.current 1 + 1 := Nat.mod_eq_of_lt (by omega)
    rw [if_neg (by norm_num), if_pos rfl, if_pos]
    · norm_num at h2
      simp [incPerform, Loaded.MaxReCount, resetMask, incrementMask, h2]
    · intro i hi hor
      show i < b.reCount
      rw [hb]
      unfold Loaded.MaxReCount at hi hor
      have : ∀ i < 16, Nat.testBit 2 i = true ∨ Nat.testBit 2 (16 + i) = true → i < 2 := by decide
      exact this i hi hor
  · rfl

end Props
end Pire
