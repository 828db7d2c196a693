import Verif.Props.Count
import Verif.Props.Capture

/-!
# Saving, loading and mapping of the scanners derived from `LoadedScanner`: properties C35 and C36

`CapturingScanner`, `CountingScanner`, `AdvancedCountingScanner` are saved by `LoadedScanner::Save` as they are; `NoGlueLimitCountingScanner` adds its
table of actions. Streams throw an exception when they end.
-/

namespace Pire

open Spec Io
open Multi (memBytes)

namespace Loaded

/-- A scanner as the constructors make it, with its number of regexps in 32 bits. -/
def Valid (s : Loaded) : Prop := (∃ T, Repr s T) ∧ s.regexpsCount < 2 ^ 32

/-- The actions a scanner returns along a text. -/
def actionsAlong (s : Loaded) : Nat → List Nat → List Nat
  | _, [] => []
  | st, c :: w => (s.next st c).2 :: s.actionsAlong (s.next st c).1 w

/-- The state (address of a row) after a text. -/
def stateAfter (s : Loaded) (w : List Nat) : Nat := w.foldl (fun st c => (s.next st c).1) s.initial

/-- Two scanners nobody can tell apart: same numbers of states, of letter classes and of regexps; along any text they return the same actions, get into
the states with the same numbers, which have the same tags. -/
structure Alike (s s' : Loaded) : Prop where
  states : s'.statesCount = s.statesCount
  letters : s'.lettersCount = s.lettersCount
  regexps : s'.regexpsCount = s.regexpsCount
  actions : ∀ w, IsWord w → s'.actionsAlong s'.initial w = s.actionsAlong s.initial w
  index : ∀ w, IsWord w → s'.stateIdx (s'.stateAfter w) = s.stateIdx (s.stateAfter w)
  tags : ∀ w, IsWord w → s'.tag (s'.stateIdx (s'.stateAfter w)) = s.tag (s.stateIdx (s.stateAfter w))

theorem Repr.along {s : Loaded} {T : ATbl} (h : Repr s T) {w : List Nat} (hw : IsWord w) {q : Nat} (hq : q < T.n) :
    s.actionsAlong (s.indexToState q) w = T.acts q w ∧ w.foldl (fun st c => (s.next st c).1) (s.indexToState q) = s.indexToState (T.after q w) ∧
      T.after q w < T.n := by
  induction w generalizing q with
  | nil => exact ⟨rfl, rfl, hq⟩
  | cons c w ih =>
    have hc := hw c (by simp)
    have hn := h.next q hq c hc
    obtain ⟨i1, i2, i3⟩ := ih (fun x hx => hw x (by simp [hx])) (h.step_lt q hq c hc)
    refine ⟨?_, ?_, i3⟩
    · unfold actionsAlong
      rw [hn, i1]; rfl
    · rw [List.foldl_cons, hn, i2]; rfl

theorem Repr.alike {s s' : Loaded} {T : ATbl} (h : Repr s T) (h' : Repr s' T) (hi : Image s s') : Alike s s' := by
  have ha : ∀ w, IsWord w → s.stateIdx (s.stateAfter w) = T.after T.q0 w ∧ s'.stateIdx (s'.stateAfter w) = T.after T.q0 w ∧ T.after T.q0 w < T.n := by
    intro w hw
    obtain ⟨-, k2, k3⟩ := h.along hw h.q0
    obtain ⟨-, j2, -⟩ := h'.along hw h'.q0
    unfold stateAfter
    rw [h.initial, h'.initial, k2, j2, h.stateIdx k3, h'.stateIdx k3]
    exact ⟨rfl, rfl, k3⟩
  refine ⟨hi.states, hi.lettersCount, hi.regexps, fun w hw => ?_, fun w hw => ?_, fun w hw => ?_⟩
  · rw [h.initial, h'.initial, (h.along hw h.q0).1, (h'.along hw h'.q0).1]
  · rw [(ha w hw).1, (ha w hw).2.1]
  · obtain ⟨a1, a2, a3⟩ := ha w hw
    rw [a1, a2, h.tag _ a3, h'.tag _ a3]

theorem Image.save {s s' : Loaded} {T : ATbl} (hi : Image s s') (h : Repr s T) (h' : Repr s' T) (type pad : Nat) : s'.save type pad = s.save type pad := by
  obtain ⟨k1, k2, k3, k4⟩ := h.nl
  have e0 : s'.savedInitial = s.savedInitial := by
    have := h.initial_bounds
    have := h'.initial_bounds
    have := hi.initial
    rw [h.savedInitial_eq, h'.savedInitial_eq]
    omega
  have bytes : ∀ {p q n : Nat}, (∀ i < n, s'.mem (p + i) = s.mem (q + i)) → memBytes s'.mem p n = memBytes s.mem q n := by
    intro p q n hh
    unfold memBytes
    exact List.map_congr_left fun i hi => hh i (List.mem_range.1 hi)
  have e1 := save_assoc type pad s []
  have e2 := save_assoc type pad s' []
  rw [List.append_nil] at e1 e2
  rw [e1, e2, e0, hi.states, hi.lettersCount, k4, bytes hi.letters, bytes hi.jumps, bytes hi.tags]
  unfold localsBytes
  rw [hi.states, hi.lettersCount, hi.regexps]

end Loaded

namespace Props

open Loaded Count

/-! ### C35 -/

/-- Loading what `Save` wrote gives a scanner that cannot be told from the saved one, writes the same bytes when saved again, and the bytes that follow
in the stream stay there. -/
theorem C35_loaded_round_trip {s : Loaded} (hv : s.Valid) {type : Nat} (ht : type = 4 ∨ type = 5) (pad base : Nat) (ha : base % 8 = 0) (hb : base ≤ 2 ^ 63)
    (rest : Bytes) : ∃ s', Loaded.load base (s.save type pad ++ rest) = some ((s', type), rest) ∧ Alike s s' ∧ s'.Valid ∧ s'.empty = false ∧
      s'.save type pad = s.save type pad := by
  obtain ⟨⟨T, hT⟩, hr⟩ := hv
  obtain ⟨s', l1, l2, l3, l4⟩ := load_saved (pad := pad) ht hT hr ha (repr_bufSize hT hb) rest
  exact ⟨s', l1, hT.alike (l3 T hT) l2, ⟨⟨T, l3 T hT⟩, by rw [l2.regexps]; exact hr⟩, l4.nonempty, l2.save hT (l3 T hT) _ _⟩

/-- Loading never looks beyond what it consumes. -/
theorem C35_loaded_rest_is_untouched {base type : Nat} {s' : Loaded} {b rest : Bytes} (h : Loaded.load base b = some ((s', type), rest)) :
    ∃ used, b = used ++ rest ∧ ∀ rest', Loaded.load base (used ++ rest') = some ((s', type), rest') :=
  Loaded.reader_load base b (s', type) rest h

/-- A stream cut anywhere is rejected. -/
theorem C35_loaded_truncated_rejected {s : Loaded} (hv : s.Valid) {type : Nat} (ht : type = 4 ∨ type = 5) (pad base : Nat) {k : Nat}
    (hk : k < (s.save type pad).length) : Loaded.load base ((s.save type pad).take k) = none := by
  obtain ⟨⟨T, hT⟩, hr⟩ := hv
  have e1 := load_save (base := base) (pad := pad) ht hT hr []
  rw [List.append_nil] at e1
  exact (Loaded.reader_load base).truncated e1 hk

/-- What `Load` insists on, for any stream at all: magic number, version, type, sizes. -/
theorem C35_loaded_accepted_streams {base type : Nat} {s' : Loaded} {b rest : Bytes} (h : Loaded.load base b = some ((s', type), rest)) :
    24 ≤ b.length ∧ (Header.ofBytes (b.take 24)).valid 4 24 = true ∧ type = (Header.ofBytes (b.take 24)).type := by
  rw [load_eq, Option.bind_eq_some_iff] at h
  obtain ⟨⟨hd, r⟩, h1, h2⟩ := h
  obtain ⟨x, y, e1, e2, e3, e4, e5⟩ := loadHeader_some h1
  have hx : x.length = 24 := e2
  have : b.take 24 = x := by rw [e1, List.append_assoc, List.take_left' hx]
  rw [this, ← e4]
  refine ⟨by rw [e1]; simp only [List.length_append]; omega, e5, ?_⟩
  unfold loadBody loadRest loadTags at h2
  simp only [Option.bind_eq_some_iff, Option.some.injEq, Prod.mk.injEq] at h2
  obtain ⟨_, _, _, _, _, _, _, _, _, _, _, _, ⟨⟨-, h3⟩, -⟩⟩ := h2
  exact h3.symm

/-- Scanners made of a canonical automaton are such as the theorems require. -/
theorem C35_loaded_valid_compiled {f : Fsm} (hf : f.Good) {g : Fsm} (hg : f.canonize 0 = some g) (finalFlag deadFlag : Nat) (remap : Nat → Nat) {base : Nat}
    (ha : base % 8 = 0) (hb : base ≤ 2 ^ 63) (hP : g.letters.size ≤ 256) (hs : g.size * (g.letters.size * 8) ≤ 2 ^ 31) :
    (compileCanonized finalFlag deadFlag remap base g).Valid := by
  have hd := (Fsm.canonize_spec hf hg).1
  obtain ⟨h1, h2, h3, h4⟩ := compileCanonized_repr finalFlag deadFlag remap hd hP ha (small_bufSize hs (letters_pos hd.wf.let_wf hd.all) hb) hs
  exact ⟨⟨_, h1⟩, by rw [h2]; norm_num⟩

/-- So are counting scanners, however they have been assembled. -/
theorem C35_loaded_valid_counting {own : Bool} {s : Loaded} {Ms : List Machine} (h : Built MadeBasic own s Ms ∨ Built MadeAdvanced own s Ms)
    (he : s.empty = false) : s.Valid := by
  rcases h with h | h
  · obtain ⟨T, b, h1, -⟩ := facts_of_built facts_made_basic h
    exact ⟨⟨T, h1.repr⟩, h1.regexps he⟩
  · obtain ⟨T, b, h1, -⟩ := facts_of_built facts_made_advanced h
    exact ⟨⟨T, h1.repr⟩, h1.regexps he⟩

/-- `CapturingScanner`: after any text, the loaded scanner has the same captured positions and accepts or not as the saved one does. -/
theorem C35_capturing_round_trip {base : Nat} {f : Fsm} {d : Nat} {s : Loaded} {g : Fsm} (h : Capture.Made base f d s g) (pad base' : Nat) (ha : base' % 8 = 0)
    (hb : base' ≤ 2 ^ 63) (rest : Bytes) : ∃ s', Loaded.load base' (s.save 4 pad ++ rest) = some ((s', 4), rest) ∧ ∀ w, IsWord w → w.length < 2 ^ 64 →
      ((Capture.scn s').after (Capture.scn s').initial w).beg = ((Capture.scn s).after (Capture.scn s).initial w).beg ∧
      ((Capture.scn s').after (Capture.scn s').initial w).fin = ((Capture.scn s).after (Capture.scn s).initial w).fin ∧
      (Capture.scn s').final ((Capture.scn s').after (Capture.scn s').initial w) = (Capture.scn s).final ((Capture.scn s).after (Capture.scn s).initial w) := by
  obtain ⟨hd, -, rfl, hr⟩ := made_repr h
  obtain ⟨-, h2, -, -⟩ := compileCanonized_repr 1 0 id hd h.letters h.align (small_bufSize h.size (letters_pos hd.wf.let_wf hd.all) h.base_le) h.size
  obtain ⟨s', l1, l2, l3, -⟩ := load_saved (pad := pad) (.inl rfl) hr (by rw [h2]; norm_num) ha (repr_bufSize hr hb) rest
  refine ⟨s', l1, fun w hw hl => ?_⟩
  obtain ⟨e1, q1⟩ := Capture.after_eq hr w hw hl
  obtain ⟨e2, q2⟩ := Capture.after_eq (l3 _ hr) w hw hl
  rw [e1, e2]
  refine ⟨rfl, rfl, ?_⟩
  show (s'.tag (s'.stateIdx _) &&& 1 != 0) = (Loaded.tag _ (Loaded.stateIdx _ _) &&& 1 != 0)
  rw [hr.stateIdx q1, (l3 _ hr).stateIdx q1, hr.tag _ q1, (l3 _ hr).tag _ q1]

/-- `CountingScanner` and `AdvancedCountingScanner`, assembled in any way (`Built`): what is loaded is again a scanner of the same regexps, in the same
order; C47 says what it counts. -/
theorem C35_counting_round_trip {own : Bool} {made : Loaded → Machine → Prop} (hm : made = MadeBasic ∨ made = MadeAdvanced) {s : Loaded} {Ms : List Machine}
    (h : Built made own s Ms) (he : s.empty = false) (pad base : Nat) (ha : base % 8 = 0) (hb : base ≤ 2 ^ 63) (rest : Bytes) :
    ∃ s', Loaded.load base (s.save 4 pad ++ rest) = some ((s', 4), rest) ∧ Built made true s' Ms := by
  have hv : s.Valid := by
    rcases hm with rfl | rfl
    · exact C35_loaded_valid_counting (.inl h) he
    · exact C35_loaded_valid_counting (.inr h) he
  obtain ⟨s', h1, -⟩ := C35_loaded_round_trip hv (.inl rfl) pad base ha hb rest
  exact ⟨s', h1, .load h he ha hb h1⟩

/-- `NoGlueLimitCountingScanner`, see `C35_counting_round_trip`. (The scanner loaded into must never have read a file of the old kind, see
`C35_nolimit_compat_sticks`.) -/
theorem C35_nolimit_round_trip {own : Bool} {s self : NoLimit} {Ms : List Machine} (h : BuiltNoLimit own s Ms) (he : s.base.empty = false) (hc : self.compat = false)
    (pad base : Nat) (ha : base % 8 = 0) (hb : base ≤ 2 ^ 63) (rest : Bytes) :
    ∃ bytes s', s.save pad = some bytes ∧ self.load base (bytes ++ rest) = some (s', rest) ∧ s'.compat = false ∧ BuiltNoLimit true s' Ms := by
  have hf := facts_of_built_nl h
  obtain ⟨T, D, b, h1, -⟩ := id hf
  obtain ⟨bytes, s', k1, k2, k3, -⟩ := hf.load he hc ha (repr_bufSize h1.repr hb) rest pad
  exact ⟨bytes, s', k1, k2, k3, .load h he hc ha hb k1 k2⟩

/-- A `NoGlueLimitCountingScanner` loads files of `AdvancedCountingScanner`s, and counts as they do (but see `C47_compat_glue_wrong`). -/
theorem C35_nolimit_reads_advanced {own : Bool} {s : Loaded} {Ms : List Machine} (h : Built MadeAdvanced own s Ms) (he : s.empty = false) (self : NoLimit)
    (pad base : Nat) (ha : base % 8 = 0) (hb : base ≤ 2 ^ 63) (rest : Bytes) :
    ∃ s', self.load base (s.save 4 pad ++ rest) = some (s', rest) ∧ s'.base.reCount = Ms.length ∧ ∀ w, IsWord w → 2 * w.length < 2 ^ 32 →
      ∃ st, (scnNoLimit s').after (scnNoLimit s').initial w = some st ∧ ∀ i M, Ms[i]? = some M → MaxRun ((M.outs M.q0 w).flatMap advancedOps) (st.result i) := by
  have hf := facts_of_built facts_made_advanced h
  obtain ⟨T, b, h1, -⟩ := id hf
  obtain ⟨s', l1, l2⟩ := hf.load he (pad := pad) ha (repr_bufSize h1.repr hb) rest
  obtain ⟨T', b', g1, -, g3, g4⟩ := l2
  refine ⟨{ self with base := s', compat := true }, ?_, g3, fun w hw hl => ?_⟩
  · unfold NoLimit.load
    rw [l1, Option.bind_some]
    simp only
    rw [if_neg (by norm_num)]
  · obtain ⟨st, k1, k2⟩ := run_compat (s := { self with base := s', compat := true }) g1 rfl hw hl
    refine ⟨st, k1, fun i M hM => ?_⟩
    have hi : i < 16 := by
      have := (List.getElem?_eq_some_iff.1 hM).1
      have := g1.count
      omega
    rw [← g4 w hw i M hM]
    unfold Count.State.result
    rw [(k2 i hi).2]
    exact (ops_spec _).2

/-- DEFECT: `Load` never clears the compatibility flag. A scanner that has read a file of an `AdvancedCountingScanner` keeps the flag when it then loads a file of
its own kind, and so takes indices into the table of actions for masks: the action 2 of a scanner of one regexp (a reset) writes outside of the counters. -/
theorem C35_nolimit_compat_sticks {own : Bool} {s self : NoLimit} {Ms : List Machine} (h : BuiltNoLimit own s Ms) (he : s.base.empty = false) (hc : self.compat = true)
    (pad base : Nat) (ha : base % 8 = 0) (hb : base ≤ 2 ^ 63) (rest : Bytes) (h1 : s.base.reCount = 1) (h2 : s.actions = none) :
    ∃ bytes s', s.save pad = some bytes ∧ self.load base (bytes ++ rest) = some (s', rest) ∧ s'.compat = true ∧
      (∀ st, s.take st 2 = some { st with current := Function.update st.current 0 0 }) ∧ ∀ st, s'.take st 2 = none := by
  have hf := facts_of_built_nl h
  obtain ⟨T, D, b, g1, -, ⟨g5, -⟩, -⟩ := id hf
  obtain ⟨b', l1, l2, -, l4⟩ := nl_load (self := self) (pad := pad) g5 g1.ids g1.repr (hf.regexps he) ha (repr_bufSize g1.repr hb) rest
  refine ⟨_, _, nl_save g5 pad, l1, hc, fun st => ?_, fun st => ?_⟩
  · unfold NoLimit.take
    rw [if_neg (by norm_num), g1.compat, if_neg Bool.false_ne_true, h2]
    simp [resetOne, h1]
  · have hr : b'.reCount = 1 := (reCount_image l2 he l4.nonempty).trans h1
    generalize s.actions = acts
    unfold NoLimit.take
    rw [if_neg (by norm_num)]
    simp only
    rw [if_pos hc, if_neg]
    intro hall
    have := hall 1 (by decide) (.inl (by decide))
    rw [hr] at this
    omega

/-- DEFECT: an empty scanner saved and loaded is no longer empty: it claims to have one regexp. -/
theorem C35_loaded_empty_is_wrong {base base' pad : Nat} {s : Loaded} (h : Loaded.null base = some s) (ha : base % 8 = 0) (hb : base ≤ 2 ^ 63) (ha' : base' % 8 = 0)
    (hb' : base' ≤ 2 ^ 63) (rest : Bytes) :
    s.empty = true ∧ s.reCount = 0 ∧ ∃ s', Loaded.load base' (s.save 4 pad ++ rest) = some ((s', 4), rest) ∧ s'.empty = false ∧ s'.reCount = 1 := by
  obtain ⟨⟨T, b, h1, -⟩, he⟩ := facts_null (g := gBasic) (leafOps := basicOps) h ha hb
  have hr : s.regexpsCount = 1 := by
    unfold Loaded.null at h
    rw [Option.map_eq_some_iff] at h
    obtain ⟨f, hf, rfl⟩ := h
    have hgood := Fsm.Good.makeFalse
    have hdet := (Fsm.canonize_spec hgood hf).1
    have hsz := Fsm.canonize_size hgood hf
    rw [if_neg (by decide), if_neg (by decide)] at hsz
    have hl := Fsm.null_letters hf
    have hM : MaxChar = 264 := rfl
    have hnl : f.size * (f.letters.size * 8) = 8 * (f.size * f.letters.size) := by ring
    have hmul : f.size * f.letters.size ≤ f.size * 1 := Nat.mul_le_mul_left _ hl
    exact (compileCanonized_repr 0 0 id hdet (by omega) ha (by unfold bufSize; rw [hM, hnl]; omega) (by omega)).2.1
  have h0 : s.reCount = 0 := by unfold Loaded.reCount; rw [he, if_pos rfl]
  obtain ⟨s', l1, l2, -, l4⟩ := load_saved (pad := pad) (.inl rfl) h1.repr (by rw [hr]; norm_num) ha' (repr_bufSize h1.repr hb') rest
  refine ⟨he, h0, s', l1, l4.nonempty, ?_⟩
  unfold Loaded.reCount
  rw [l4.nonempty, if_neg Bool.false_ne_true, l2.regexps, hr]

/-! ### C36 -/

/-- The ranges of memory a scanner reads are within `[lo, hi)`. -/
def Within (s : Loaded) (lo hi : Nat) : Prop :=
  lo ≤ s.letters ∧ s.letters + MaxChar ≤ hi ∧ lo ≤ s.jumps ∧ s.jumps + 8 * (s.statesCount * s.lettersCount % 2 ^ 32) ≤ hi ∧
    lo ≤ s.tags ∧ s.tags + s.statesCount ≤ hi

/-- Mapping what `Save` wrote gives a scanner that cannot be told from the saved one, reads nothing but the saved bytes, and the pointer just past them. -/
theorem C36_loaded_mmap_saved {s : Loaded} (hv : s.Valid) {type : Nat} (ht : type = 4 ∨ type = 5) {pad : Nat} {mem : Mem} {ptr size : Nat} (ha : ptr % 8 = 0)
    (hs : ptr + 8 * size + 16 < 2 ^ 64) (hlen : (s.save type pad).length ≤ size) (hm : memBytes mem ptr (s.save type pad).length = s.save type pad) :
    ∃ s' k, Loaded.mmap mem ptr size = .ok s' type (ptr + (s.save type pad).length) k ∧ Alike s s' ∧ s'.Valid ∧ s'.empty = false ∧ s'.mem = mem ∧
      Within s' ptr (ptr + (s.save type pad).length) := by
  obtain ⟨⟨T, hT⟩, hr⟩ := hv
  obtain ⟨k1, k2, k3, k4⟩ := hT.nl
  obtain ⟨s', k, l1, l2, l3, l4⟩ := mmap_saved ht hT hr ha hs hlen hm
  have hL := length_save type pad s
  rw [k4] at hL
  obtain ⟨m1, m2, m3, m4⟩ := saved_in_memory ht hT hr ha (by omega) hm
  have e : s' = mapped mem ptr := by
    rw [mmap_eq mem ha hs] at l1
    split_ifs at l1
    injection l1 with l1
    exact l1.symm
  refine ⟨s', k, l1, hT.alike (l3 T hT) l2, ⟨⟨T, l3 T hT⟩, by rw [l2.regexps]; exact hr⟩, l4, by rw [e]; rfl, ?_⟩
  unfold Within
  rw [l2.states, l2.lettersCount, k4, hL]
  have ht' : (mapped mem ptr).tags = ptr + 312 + 8 * (s.statesCount * s.lettersCount) := by
    show Scn.alignUp (ptr + 312 + 8 * mapCount mem ptr + mapOld mem ptr) 8 = _
    rw [m3, m4]
    unfold Scn.alignUp
    omega
  rw [e, ht']
  have hM : MaxChar = 264 := rfl
  show ptr ≤ ptr + 48 ∧ ptr + 48 + MaxChar ≤ _ ∧ ptr ≤ ptr + 312 ∧ ptr + 312 + _ ≤ _ ∧ _ ∧ _
  rw [hM]
  omega

/-- A misaligned pointer is rejected. -/
theorem C36_loaded_misaligned_rejected {mem : Mem} {ptr size : Nat} (ha : ptr % 8 ≠ 0) : Loaded.mmap mem ptr size = .throws := mmap_misaligned mem ha

/-- Whatever the memory contains, a mapped scanner of the current version lies within the given range. (The number of transitions is computed with 32 bits, as in
`Within`; a file that claims more leads outside, see `C36_loaded_forged_counts`.) With the old version, up to four bytes past the end are read. -/
theorem C36_loaded_stays_inside {mem : Mem} {ptr size : Nat} (hs : ptr + 8 * size + 16 < 2 ^ 64) {s' : Loaded} {type p k : Nat}
    (h : Loaded.mmap mem ptr size = .ok s' type p k) :
    s'.mem = mem ∧ Within s' ptr (ptr + size + 4) ∧ ((Header.ofBytes (memBytes mem ptr 24)).version ≠ 6 → Within s' ptr (ptr + size)) := by
  by_cases ha : ptr % 8 = 0
  swap
  · rw [mmap_misaligned mem ha] at h; cases h
  rw [mmap_eq mem ha hs] at h
  split_ifs at h with h1 h2 h3
  injection h with h _ _ _
  subst h
  have hc : (mapped mem ptr).statesCount * (mapped mem ptr).lettersCount % 2 ^ 32 = mapCount mem ptr := rfl
  have ht : (mapped mem ptr).tags = Scn.alignUp (ptr + 312 + 8 * mapCount mem ptr + mapOld mem ptr) 8 := rfl
  have hM : MaxChar = 264 := rfl
  have h4 : mapOld mem ptr % 4 = 0 := by unfold mapOld; split <;> omega
  have hup : Scn.alignUp (ptr + 312 + 8 * mapCount mem ptr + mapOld mem ptr) 8 ≤ ptr + 312 + 8 * mapCount mem ptr + mapOld mem ptr + 4 ∧
    ptr ≤ Scn.alignUp (ptr + 312 + 8 * mapCount mem ptr + mapOld mem ptr) 8 ∧
    (mapOld mem ptr = 0 → Scn.alignUp (ptr + 312 + 8 * mapCount mem ptr + mapOld mem ptr) 8 = ptr + 312 + 8 * mapCount mem ptr + mapOld mem ptr) := by
    unfold Scn.alignUp; omega
  refine ⟨rfl, ?_, fun hv => ?_⟩
  · unfold Within
    rw [hc, ht, hM]
    show ptr ≤ ptr + 48 ∧ ptr + 48 + 264 ≤ _ ∧ ptr ≤ ptr + 312 ∧ ptr + 312 + _ ≤ _ ∧ _ ∧ _
    omega
  · have ho : mapOld mem ptr = 0 := by unfold mapOld; rw [if_neg hv]
    unfold Within
    rw [hc, ht, hM, hup.2.2 ho]
    show ptr ≤ ptr + 48 ∧ ptr + 48 + 264 ≤ _ ∧ ptr ≤ ptr + 312 ∧ ptr + 312 + _ ≤ _ ∧ _ ∧ _
    omega

/-- DEFECT: the number of transitions is computed with 32 bits. 312 + 2^17 bytes of input that claim to have 2^17 states and 2^15 letter classes are accepted,
although the table of transitions takes 2^35 bytes. -/
theorem C36_loaded_forged_counts {mem : Mem} {ptr : Nat} (ha : ptr % 8 = 0) (hs : ptr + 8 * (312 + 2 ^ 17) + 16 < 2 ^ 64)
    (hh : memBytes mem ptr 24 = (Header.mk' 4 localsLen).bytes) (hn : memBytes mem (ptr + 24) 4 = le 4 (2 ^ 17)) (hl : memBytes mem (ptr + 28) 4 = le 4 (2 ^ 15)) :
    ∃ s' p k, Loaded.mmap mem ptr (312 + 2 ^ 17) = .ok s' 4 p k ∧ 8 * (s'.statesCount * s'.lettersCount) = 2 ^ 35 := by
  have hc : mapCount mem ptr = 0 := by
    unfold mapCount
    rw [hn, hl, num_le4 _ (by norm_num), num_le4 _ (by norm_num)]
    norm_num
  have ho : mapOld mem ptr = 0 := by unfold mapOld; rw [hc]; simp
  have hst : (mapped mem ptr).statesCount = 2 ^ 17 := by
    show num (memBytes mem (ptr + 24) 4) = _
    rw [hn, num_le4 _ (by norm_num)]
  have hlt : (mapped mem ptr).lettersCount = 2 ^ 15 := by
    show num (memBytes mem (ptr + 28) 4) = _
    rw [hl, num_le4 _ (by norm_num)]
  have key := mmap_eq mem ha hs
  rw [ hc, ho, hst, hh, header_ok (.inl rfl), header_valid (.inl rfl)] at key
  have c1 : ¬ (312 + 2 ^ 17 < 24 ∨ true = false) := by
    rintro (h | h)
    · omega
    · cases h
  rw [if_neg c1, if_neg (by norm_num), if_neg (by norm_num)] at key
  exact ⟨mapped mem ptr, _, _, key, by rw [hst, hlt]; norm_num⟩

/-- There is such a memory. -/
example : ∃ mem : Mem, memBytes mem 0 24 = (Header.mk' 4 localsLen).bytes ∧ memBytes mem 24 4 = le 4 (2 ^ 17) ∧ memBytes mem 28 4 = le 4 (2 ^ 15) := by
  have h := memBytes_blockMem 0 ((Header.mk' 4 localsLen).bytes ++ (le 4 (2 ^ 17) ++ le 4 (2 ^ 15)))
  obtain ⟨h1, h2⟩ := Multi.memBytes_split h
  rw [length_header] at h1 h2
  obtain ⟨h3, h4⟩ := Multi.memBytes_split h2
  rw [length_le] at h3 h4
  rw [length_le] at h4
  exact ⟨_, h1, h3, h4⟩

/-- Exactly when saved bytes that are not all there are accepted: the padding after the tags may be missing, but for its first byte. -/
theorem C36_loaded_accepts_iff {s : Loaded} (hv : s.Valid) {type : Nat} (ht : type = 4 ∨ type = 5) {pad : Nat} {mem : Mem} {ptr size : Nat} (ha : ptr % 8 = 0)
    (hs : ptr + 8 * size + 16 < 2 ^ 64) (hp : ptr < 2 ^ 63) (hm : memBytes mem ptr (s.save type pad).length = s.save type pad) :
    (∃ s' p k, Loaded.mmap mem ptr size = .ok s' type p k) ↔ (s.save type pad).length - tail s.statesCount + (if s.statesCount % 8 = 0 then 0 else 1) ≤ size := by
  obtain ⟨⟨T, hT⟩, hr⟩ := hv
  obtain ⟨k1, k2, k3, k4⟩ := hT.nl
  have hL := length_save type pad s
  rw [k4] at hL
  obtain ⟨m1, m2, m3, m4⟩ := saved_in_memory ht hT hr ha (by omega) hm
  have hst := m2.states
  rw [mmap_eq mem ha hs, m1, m3, m4, hst, header_valid ht, hL]
  have e : 312 + 8 * (s.statesCount * s.lettersCount) + (s.statesCount + tail s.statesCount) - tail s.statesCount =
    312 + 8 * (s.statesCount * s.lettersCount) + s.statesCount := by omega
  rw [e]
  have key : (312 + 8 * (s.statesCount * s.lettersCount) + s.statesCount + (if s.statesCount % 8 = 0 then 0 else 1) ≤ size) ↔
      ¬ (size < 312 + 8 * (s.statesCount * s.lettersCount) + 0 + s.statesCount ∨
        (s.statesCount % 8 ≠ 0 ∧ size = 312 + 8 * (s.statesCount * s.lettersCount) + 0 + s.statesCount)) := by
    split <;> omega
  rw [key]
  constructor
  · rintro ⟨s', p, k, h⟩
    intro hc
    split_ifs at h
  · intro hc
    have c1 : ¬ (size < 24 ∨ true = false) := by
      rintro (h | h)
      · omega
      · cases h
    have c2 : ¬ (size < 312 + 8 * (s.statesCount * s.lettersCount) + 0 ∨ (0 % 8 ≠ 0 ∧ size = 312 + 8 * (s.statesCount * s.lettersCount) + 0)) := by omega
    rw [if_neg c1, if_neg c2, if_neg hc]
    exact ⟨_, _, _, rfl⟩

/-- `NoGlueLimitCountingScanner`: mapping what `Save` wrote gives a scanner of the same regexps and the pointer just past the bytes. -/
theorem C36_nolimit_mmap_saved {own : Bool} {s : NoLimit} {Ms : List Machine} (h : BuiltNoLimit own s Ms) (he : s.base.empty = false) {pad : Nat} {bytes : Bytes}
    (hb : s.save pad = some bytes) {mem : Mem} {ptr size : Nat} (ha : ptr % 8 = 0) (hs : ptr + 8 * size + 16 < 2 ^ 64) (hlen : bytes.length ≤ size)
    (hm : memBytes mem ptr bytes.length = bytes) : ∃ s', NoLimit.mmap mem ptr size = .ok s' (ptr + bytes.length) ∧ BuiltNoLimit false s' Ms := by
  obtain ⟨s', k1, -⟩ := (facts_of_built_nl h).map he hb ha hs hlen hm
  exact ⟨s', k1, .map h he ha hs hb hlen hm k1⟩

/-- The counting scanners with masks. -/
theorem C36_counting_mmap_saved {own : Bool} {made : Loaded → Machine → Prop} (hmd : made = MadeBasic ∨ made = MadeAdvanced) {s : Loaded} {Ms : List Machine}
    (h : Built made own s Ms) (he : s.empty = false) {pad : Nat} {mem : Mem} {ptr size : Nat} (ha : ptr % 8 = 0) (hs : ptr + 8 * size + 16 < 2 ^ 64)
    (hlen : (s.save 4 pad).length ≤ size) (hm : memBytes mem ptr (s.save 4 pad).length = s.save 4 pad) :
    ∃ s' k, Loaded.mmap mem ptr size = .ok s' 4 (ptr + (s.save 4 pad).length) k ∧ Built made false s' Ms := by
  have hv : s.Valid := by
    rcases hmd with rfl | rfl
    · exact C35_loaded_valid_counting (.inl h) he
    · exact C35_loaded_valid_counting (.inr h) he
  obtain ⟨s', k, h1, -⟩ := C36_loaded_mmap_saved hv (.inl rfl) ha hs hlen hm
  exact ⟨s', k, h1, .map h he ha hs hlen hm h1⟩

/-- DEFECT: `NoGlueLimitCountingScanner::Mmap` does not compare the size of the table of actions with what is left of the input. Given the table of the
transitions only, it reads four bytes past the end; given four bytes more, it accepts, whatever number they contain, and uses the array beyond the end. -/
theorem C36_nolimit_actions_unchecked {mem : Mem} {ptr size : Nat} {s : Loaded} {p k : Nat} (h : Loaded.mmap mem ptr size = .ok s 5 p k) :
    (ptr + size < p + 4 → NoLimit.mmap mem ptr size = .overread) ∧
    (p + 4 ≤ ptr + size → ∃ s' p', NoLimit.mmap mem ptr size = .ok s' p' ∧
      (num (memBytes mem p 4) ≠ 0 → p' = p + 4 * num (memBytes mem p 4) ∧ ∃ l, s'.actions = some l ∧ l.length = num (memBytes mem p 4))) := by
  have hw : ∀ n b, (words n b).length = n := by
    intro n
    induction n with
    | zero => intro b; rfl
    | succ n ih => intro b; rw [words, List.length_cons, ih]
  unfold NoLimit.mmap
  rw [h]
  simp only [if_true]
  constructor
  · intro hlt
    rw [if_pos hlt]
  · intro hle
    rw [if_neg (by omega)]
    by_cases h0 : num (memBytes mem p 4) = 0
    · rw [if_pos h0]
      exact ⟨_, _, rfl, fun h => absurd h0 h⟩
    · rw [if_neg h0]
      exact ⟨_, _, rfl, fun _ => ⟨rfl, _, rfl, hw _ _⟩⟩

/-! ### The hypotheses can be met -/

/-- A scanner that was glued, saved, loaded, saved and mapped. -/
example : ∃ s, Built MadeAdvanced false s [seriesOf 97, seriesOf 98] := by
  obtain ⟨g, hg, he⟩ := glued_example
  obtain ⟨s, -, hs⟩ := C35_counting_round_trip (.inr rfl) hg he 0 0 (by norm_num) (by norm_num) []
  have he' : s.empty = false := by
    obtain ⟨T, b, -, h2, -⟩ := facts_of_built facts_made_advanced hs
    exact (h2 rfl).nonempty
  obtain ⟨s', k, -, hs'⟩ := C36_counting_mmap_saved (.inr rfl) hs he' (pad := 0) (mem := Multi.blockMem 8 (s.save 4 0)) (ptr := 8) (size := (s.save 4 0).length) (by norm_num)
    (by
      obtain ⟨⟨T, hT⟩, -⟩ := C35_loaded_valid_counting (.inr hs) he'
      obtain ⟨k1, k2, k3, k4⟩ := hT.nl
      have ht : tail s.statesCount ≤ 8 := by unfold tail Scn.alignUp; omega
      rw [length_save, k4]
      omega) le_rfl (memBytes_blockMem 8 _)
  exact ⟨s', hs'⟩

end Props
end Pire
