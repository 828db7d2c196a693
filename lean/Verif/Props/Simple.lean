import Verif.Proofs.SimpleIo
import Verif.Props.Io

/-!
# SimpleScanner: properties C23, C28–C33, C35, C36, C37

`Simple.compile base f` is `f.Compile<SimpleScanner>()`, its block is allocated at `base`.
-/

namespace Pire

open Spec Scn

/-- `s` recognises the language `L`: after any word, `Final` iff the word is in `L`, and `AcceptedRegexps` is `{0}` or empty
accordingly. -/
structure Simple.Recognizes (s : Simple) (L : Language Nat) : Prop where
  final : ∀ w, IsWord w → (s.scn.final (s.scn.after s.scn.initial w) = true ↔ w ∈ L)
  accepts : ∀ w, IsWord w → w ∈ L → s.acceptedRegexps (s.scn.after s.scn.initial w) = [0]
  rejects : ∀ w, IsWord w → w ∉ L → s.acceptedRegexps (s.scn.after s.scn.initial w) = []

/-- The states a scanner can get into by reading letters. -/
def Simple.Reached (s : Simple) (st : Nat) : Prop := ∃ w, IsWord w ∧ st = s.scn.after s.scn.initial w

/-- The block is filled in properly (`∃` table), at an 8-aligned address inside the address space. -/
def Simple.Valid (s : Simple) : Prop := (∃ T, Simple.Repr s T) ∧ s.empty = false ∧ 0 < s.base

namespace Props

open Fsm Simple Io
open Multi (memBytes memBytes_split length_memBytes)

section
variable {base : Nat} {f : Fsm} {s : Simple}

theorem simple_scn_final (s : Simple) (st : Nat) : s.scn.final st = s.final st := by simp only [Simple.scn]

theorem simple_recognizes {T : Tbl} (h : Simple.Repr s T) {L : Language Nat} :
    Simple.Recognizes s L ↔ ∀ w, IsWord w → (T.flag (T.after T.q0 w) &&& 1 ≠ 0 ↔ w ∈ L) := by
  have hi : s.scn.initial = s.indexToState T.q0 := h.initial
  have hf : ∀ w, IsWord w → s.scn.final (s.scn.after s.scn.initial w) = (T.flag (T.after T.q0 w) &&& 1 != 0) := fun w hw => by
    rw [hi, h.after_eq h.wf.q0_lt hw, simple_scn_final, h.final_eq (h.wf.after_lt h.wf.q0_lt hw)]
  constructor
  · intro hR w hw
    rw [← hR.final w hw, hf w hw]; simp
  · intro hR
    have hfin : ∀ w, IsWord w → (s.scn.final (s.scn.after s.scn.initial w) = true ↔ w ∈ L) := fun w hw => by
      rw [← hR w hw, hf w hw]; simp
    refine ⟨hfin, fun w hw hL => ?_, fun w hw hL => ?_⟩
    · have := (hfin w hw).2 hL
      unfold Simple.acceptedRegexps
      rw [← simple_scn_final, if_pos this]
    · have : ¬ _ := fun hx => hL ((hfin w hw).1 hx)
      unfold Simple.acceptedRegexps
      rw [← simple_scn_final, if_neg this]

/-- Scanners with the same table recognise the same language. -/
theorem simple_same {s s' : Simple} {T : Tbl} (h : Simple.Repr s T) (h' : Simple.Repr s' T) {L : Language Nat}
    (hR : Simple.Recognizes s L) : Simple.Recognizes s' L := (simple_recognizes h').2 ((simple_recognizes h).1 hR)

theorem simple_compile_repr (h : f.Good) (ht : f.TagsIn (· = 0)) (hs : Simple.compile base f = some s) (ha : base % 8 = 0)
    (hsp : base + bufSize s.statesCount ≤ 2 ^ 64) :
    ∃ g, Simple.Repr s (tblOf g) ∧ g.Det ∧ g.TagsClean ∧ g.Lang = f.Lang ∧ s.empty = false ∧ s.base = base := by
  unfold Simple.compile at hs
  rw [Option.map_eq_some_iff] at hs
  obtain ⟨g, hg, rfl⟩ := hs
  obtain ⟨hd, -, hL, -⟩ := Fsm.canonize_spec h hg
  have htg : g.TagsIn (· = 0) := ht.canonize (fun a b ha hb => by subst ha; subst hb; rfl) hg
  have hst : (compileCanonized base g).statesCount = g.size := by
    rw [compileCanonized_eq]; exact (writes_rest _ _).1
  rw [hst] at hsp
  obtain ⟨r1, r2, r3, r4⟩ := compileCanonized_repr hd htg ha hsp
  exact ⟨g, r1, hd, fun q t hq => by rw [htg q t hq], hL, r2, r3⟩

/-- A compiled SimpleScanner recognises exactly the language of the automaton. (The block is 8-aligned and in the address space.
Tags of the automaton must be zero: see `C23_simple_tag_is_final`.) -/
theorem C23_simple_decides (h : f.Good) (ht : f.TagsIn (· = 0)) (hs : Simple.compile base f = some s) (ha : base % 8 = 0)
    (hsp : base + bufSize s.statesCount ≤ 2 ^ 64) : Simple.Recognizes s f.Lang ∧ s.regexpsCount = 1 := by
  obtain ⟨g, r1, hd, hc, hL, r2, r3⟩ := simple_compile_repr h ht hs ha hsp
  refine ⟨(simple_recognizes r1).2 fun w hw => ?_, by unfold Simple.regexpsCount; rw [r2]; rfl⟩
  rw [← hL]
  exact ((Multi.tblOf_sem hd hc).final w hw).trans (by simp)

/-- Compiled scanners are valid. -/
theorem C23_simple_valid (h : f.Good) (ht : f.TagsIn (· = 0)) (hs : Simple.compile base f = some s) (ha : base % 8 = 0) (h0 : 0 < base)
    (hsp : base + bufSize s.statesCount ≤ 2 ^ 64) : s.Valid := by
  obtain ⟨g, r1, hd, hc, hL, r2, r3⟩ := simple_compile_repr h ht hs ha hsp
  exact ⟨⟨_, r1⟩, r2, by rw [r3]; exact h0⟩

/-- From the expression the automaton was built from to the scanner. -/
theorem C23_simple_expression (e : Expr) (ok : e.Ok) (hf : build e = some f) (hs : Simple.compile base f = some s) (ha : base % 8 = 0)
    (hsp : base + bufSize s.statesCount ≤ 2 ^ 64) : Simple.Recognizes s e.den := by
  obtain ⟨hg, hL, -⟩ := build_spec e ok f hf
  rw [← hL]
  exact (C23_simple_decides hg (build_tagsIn _ (fun a b ha hb => by subst ha; subst hb; rfl) e f hf) hs ha hsp).1

theorem simple_reached_closed : Closed s.scn (Simple.Reached s) := by
  rintro st c ⟨w, hw, rfl⟩ hc
  refine ⟨w ++ [c], fun x hx => (List.mem_append.1 hx).elim (hw x) fun hx => by rw [List.mem_singleton.1 hx]; exact hc, ?_⟩
  rw [after_append]; rfl

theorem simple_reached_initial : Simple.Reached s s.scn.initial := ⟨[], fun _ h => absurd h (by simp), rfl⟩

theorem simple_dead_sound : DeadSound s.scn (Simple.Reached s) := fun _ _ h => (by cases h)

/-- `Next` and `Final` read words that lie inside the block. -/
theorem C23_simple_reads_stay_in_block (hv : s.Valid) {st c : Nat} (hst : Simple.Reached s st) (hc : c < MaxChar) :
    s.base ≤ st - 8 ∧ st + 8 * c + 8 ≤ s.base + bufSize s.statesCount ∧ s.stateIndex st < s.statesCount := by
  obtain ⟨⟨T, hT⟩, -, -⟩ := hv
  obtain ⟨w, hw, rfl⟩ := hst
  have hi : s.scn.initial = s.indexToState T.q0 := hT.initial
  have hq := hT.wf.after_lt hT.wf.q0_lt hw
  rw [hi, hT.after_eq hT.wf.q0_lt hw]
  obtain ⟨h1, h2⟩ := hT.in_block hq hc
  refine ⟨h1, h2, ?_⟩
  have hsp := hT.space
  have hr := row_lt hq
  rw [hT.states] at hsp ⊢
  unfold stateIndex indexToState word
  have hM : rowSize = 265 := rfl
  unfold bufSize at hsp
  rw [hM] at hsp ⊢
  rw [show s.base + 8 * ((T.after T.q0 w) * 265 + 1) + 2 ^ 64 - s.base = 8 * ((T.after T.q0 w) * 265 + 1) + 2 ^ 64 by omega]
  omega

/-- `Run` (without shortcuts, reading whole words) and `Matches`, at any address: the text is accepted iff it is in the
language. -/
theorem C28_simple_matches {L : Language Nat} (hR : Simple.Recognizes s L) (mem : Mem) {b e : Nat} (hbe : b ≤ e) :
    s.scn.final (s.scn.run mem b e s.scn.initial) = true ↔ bytesAt mem b (e - b) ∈ L := by
  rw [C28_run_is_stepwise s.scn mem hbe]
  exact hR.final _ (bytesAt_word _ _ _)

theorem simple_start_eq (c : Nat) (throughBegin : Bool) (w : List Nat) :
    s.scn.after (startState s.scn c throughBegin) w = s.scn.after s.scn.initial ((if throughBegin then [c] else []) ++ w) := by
  cases throughBegin <;> rfl

/-- `LongestPrefix`, in terms of the language. -/
theorem C31_simple_longest_prefix {L : Language Nat} (hR : Simple.Recognizes s L) (mem : Mem) {b e : Nat} (hbe : b ≤ e) (throughBegin : Bool) :
    ∃ k, Longest (fun k => (if throughBegin then [BeginMark] else []) ++ (bytesAt mem b (e - b)).take k ∈ L) (e - b) k ∧
      s.scn.longestPrefix mem b e throughBegin false = k.map (b + ·) := by
  have := C31_longest_prefix s.scn (Simple.Reached s) simple_reached_closed simple_dead_sound simple_reached_initial mem hbe throughBegin false
  unfold longestSpec at this
  rw [if_neg (by simp)] at this
  obtain ⟨k, hk, he⟩ := this
  have hw : IsWord (bytesAt mem b (e - b)) := bytesAt_word _ _ _
  have hfin : ∀ k, (s.scn.final (s.scn.after (startState s.scn BeginMark throughBegin) ((bytesAt mem b (e - b)).take k)) = true) =
      ((if throughBegin then [BeginMark] else []) ++ (bytesAt mem b (e - b)).take k ∈ L) := by
    intro k
    rw [simple_start_eq, eq_iff_iff]
    exact hR.final _ (mark_word fun c hc => hw c (List.mem_of_mem_take hc))
  refine ⟨k, ?_, he⟩
  rw [bytesAt_length] at hk
  simp only [hfin] at hk
  exact hk

/-- `ShortestPrefix`, in terms of the language. -/
theorem C32_simple_shortest_prefix {L : Language Nat} (hR : Simple.Recognizes s L) (mem : Mem) {b e : Nat} (hbe : b ≤ e) (throughBegin : Bool) :
    ∃ k, Shortest (fun k => (if throughBegin then [BeginMark] else []) ++ (bytesAt mem b (e - b)).take k ∈ L) (e - b) k ∧
      s.scn.shortestPrefix mem b e throughBegin false = k.map (b + ·) := by
  obtain ⟨k, hk, he⟩ := C32_shortest_prefix s.scn (Simple.Reached s) simple_reached_closed simple_dead_sound simple_reached_initial mem hbe throughBegin false
  have hw : IsWord (bytesAt mem b (e - b)) := bytesAt_word _ _ _
  have hfin : ∀ k, (s.scn.final (s.scn.after (startState s.scn BeginMark throughBegin) ((bytesAt mem b (e - b)).take k)) = true) =
      ((if throughBegin then [BeginMark] else []) ++ (bytesAt mem b (e - b)).take k ∈ L) := by
    intro k
    rw [simple_start_eq, eq_iff_iff]
    exact hR.final _ (mark_word fun c hc => hw c (List.mem_of_mem_take hc))
  refine ⟨k, ?_, ?_⟩
  · rw [bytesAt_length] at hk
    simp only [hfin] at hk
    exact hk
  · rw [he]
    cases k with
    | some k => rfl
    | none => rfl

/-! ### Copies (C37) -/

/-- A copy owns a block of its own and recognises the same language; a copy of a mapped scanner is the scanner itself. -/
theorem C37_simple_copy {L : Language Nat} (hv : s.Valid) (hR : Simple.Recognizes s L) (owned : Bool) (ha : base % 8 = 0) (h0 : 0 < base)
    (hsp : base + bufSize s.statesCount ≤ 2 ^ 64) :
    Simple.Recognizes (copyCtor owned base s) L ∧ (copyCtor owned base s).Valid ∧ (owned = true → (copyCtor owned base s).base = base) := by
  cases owned with
  | false => exact ⟨hR, hv, fun h => absurd h (by decide)⟩
  | true =>
    obtain ⟨⟨T, hT⟩, he, hb⟩ := hv
    have hi := copy_image hT hsp
    have hbase : (copyCtor true base s).base = base := by unfold copyCtor; rw [if_pos rfl, withBlock_base]
    have hT' := hi.repr hT (by rw [hbase]; exact ha) (by rw [hbase, hi.states]; exact hsp)
    exact ⟨simple_same hT hT' hR, ⟨⟨T, hT'⟩, hi.empty, by rw [hbase]; exact h0⟩, fun _ => hbase⟩

/-! ### C35 -/

/-- Saving and loading: exactly the written bytes are consumed; the loaded scanner recognises the same language and has as many
states. -/
theorem C35_simple_round_trip {L : Language Nat} (hv : s.Valid) (hR : Simple.Recognizes s L) (null : Simple) (ha : base % 8 = 0) (h0 : 0 < base)
    (hsp : base + bufSize s.statesCount ≤ 2 ^ 64) (rest : Bytes) :
    ∃ s', Simple.load null base (s.save ++ rest) = some (s', rest) ∧ Simple.Recognizes s' L ∧ s'.Valid ∧ s'.statesCount = s.statesCount ∧
      s'.base = base ∧ s'.save = s.save := by
  obtain ⟨⟨T, hT⟩, he, hb⟩ := hv
  obtain ⟨s', e1, hi, e3⟩ := load_save (null := null) hT he hb hsp rest
  have hT' := hi.repr hT (by rw [e3]; exact ha) (by rw [e3, hi.states]; exact hsp)
  refine ⟨s', e1, simple_same hT hT' hR, ⟨⟨T, hT'⟩, hi.empty, by rw [e3]; exact h0⟩, hi.states, e3, ?_⟩
  have a := save_assoc s []
  have b := save_assoc s' []
  rw [List.append_nil] at a b
  have hini : s'.savedInitial = s.savedInitial := by
    rw [hT.savedInitial_eq, hT'.savedInitial_eq]
    have := hi.initial
    have := hT.initial_bounds.1
    have := hT'.initial_bounds.1
    omega
  have hblk : s'.blockBytes = s.blockBytes := by
    unfold blockBytes
    rw [hi.states]
    exact List.map_congr_left fun i hi' => hi.bytes i (List.mem_range.1 hi')
  rw [a, b, hini, hblk, hi.states, he, hi.empty]

/-- A saved empty scanner is loaded as the empty scanner. -/
theorem C35_simple_empty_round_trip (hn : s.statesCount < 2 ^ 64) (he : s.empty = true) (null : Simple) (rest : Bytes) :
    Simple.load null base (s.save ++ rest) = some (null, rest) := load_save_empty hn he rest

/-- Loading never looks beyond what it consumes. -/
theorem C35_simple_rest_is_untouched {null s' : Simple} {b rest : Bytes} (h : Simple.load null base b = some (s', rest)) :
    ∃ used, b = used ++ rest ∧ ∀ rest', Simple.load null base (used ++ rest') = some (s', rest') :=
  Simple.reader_load null base b s' rest h

/-- A stream cut anywhere is rejected. -/
theorem C35_simple_truncated_rejected (hv : s.Valid) (null : Simple) (hsp : base + bufSize s.statesCount ≤ 2 ^ 64) {k : Nat}
    (hk : k < s.save.length) : Simple.load null base (s.save.take k) = none := by
  obtain ⟨⟨T, hT⟩, he, hb⟩ := hv
  obtain ⟨s', e1, -⟩ := load_save (null := null) hT he hb hsp []
  rw [List.append_nil] at e1
  exact (Simple.reader_load null base).truncated e1 hk

/-- What `Load` insists on, for any stream at all. -/
theorem C35_simple_accepted_streams {null s' : Simple} {b rest : Bytes} (h : Simple.load null base b = some (s', rest)) :
    24 ≤ b.length ∧ (Header.ofBytes (b.take 24)).valid 2 16 = true := by
  unfold Simple.load at h
  rw [Option.bind_eq_some_iff] at h
  obtain ⟨⟨hd, r⟩, h1, -⟩ := h
  obtain ⟨x, y, e1, e2, e3, e4, e5⟩ := loadHeader_some h1
  have hx : x.length = 24 := e2
  have : b.take 24 = x := by rw [e1, List.append_assoc, List.take_left' hx]
  rw [this, ← e4]
  exact ⟨by rw [e1]; simp only [List.length_append]; omega, e5⟩

/-! ### C36 -/

/-- Mapping the saved bytes gives a scanner with the same language whose block is inside the given memory, and a pointer just
past those bytes. -/
theorem C36_simple_mmap_saved {L : Language Nat} (hv : s.Valid) (hR : Simple.Recognizes s L) (self : Simple) {mem : Mem} {ptr size : Nat}
    (ha : ptr % 8 = 0) (hs : ptr + 8 * size < 2 ^ 64) (hmem : memBytes mem ptr s.save.length = s.save) (hsz : s.save.length ≤ size) :
    ∃ s', Simple.mmap self mem ptr size = .ok s' (ptr + s.save.length) ∧ Simple.Recognizes s' L ∧ s'.Valid ∧ s'.mem = mem ∧
      ptr ≤ s'.base ∧ s'.base + bufSize s'.statesCount ≤ ptr + size := by
  obtain ⟨⟨T, hT⟩, he, hb⟩ := hv
  obtain ⟨m1, m2, m3, m4, m5⟩ := saved_in_memory hT.states_lt hmem
  have hl := length_save s
  rw [he, if_neg (by decide)] at hl
  rw [hl] at hsz ⊢
  have hlt := hT.bufSize_lt hb
  have hi := placed_image hT (base := ptr + 48) (mem := mem) (by omega) (mapped_bytes (m5 he))
  have hbase : (placeAt s.statesCount s.savedInitial (ptr + 48) mem).base = ptr + 48 := withBlock_base _ _ _ _
  have hT' := hi.repr hT (by rw [hbase]; omega) (by rw [hbase, hi.states]; omega)
  refine ⟨_, ?_, simple_same hT hT' hR, ⟨⟨T, hT'⟩, hi.empty, by rw [hbase]; omega⟩, withBlock_mem _ _ _ _, by rw [hbase]; omega,
    by rw [hbase, hi.states]; omega⟩
  have hpos : 8 ≤ bufSize s.statesCount := by
    have := hT.initial_bounds.2
    unfold bufSize at this ⊢
    omega
  rw [Simple.mmap_eq self mem ha hs, m2, m3, m4, he, if_neg (by omega), if_neg (by rw [m1]; decide), if_neg (by omega), if_neg (by omega),
    if_neg (by decide), Nat.mod_eq_of_lt hlt, if_neg (by omega), Nat.add_assoc]

/-- A misaligned pointer is rejected. -/
theorem C36_simple_misaligned_rejected {self : Simple} {mem : Mem} {ptr size : Nat} (ha : ptr % 8 ≠ 0) :
    Simple.mmap self mem ptr size = .throws := mmap_misaligned self mem ha

/-- Whatever the memory contains: a mapped block ends at most seven bytes past the given range, and except for `size = 40` no byte
outside is looked at. Missing from the property: the seven bytes, and the exception, see below. -/
theorem C36_simple_stays_inside_partial {self : Simple} {mem : Mem} {ptr size : Nat} (hs : ptr + 8 * size < 2 ^ 64) :
    (size ≠ 40 → Simple.mmap self mem ptr size ≠ .overread) ∧
    ∀ s' p, Simple.mmap self mem ptr size = .ok s' p → ptr ≤ p ∧ p ≤ ptr + size + 7 ∧ (s' = self ∨
      (s'.mem = mem ∧ s'.base = ptr + 48 ∧ s'.base + bufSize s'.statesCount % 2 ^ 64 = p)) := by
  by_cases ha : ptr % 8 = 0
  swap
  · rw [mmap_misaligned self mem ha]
    exact ⟨fun _ h => (by cases h), fun _ _ h => (by cases h)⟩
  rw [Simple.mmap_eq self mem ha hs]
  generalize num (memBytes mem (ptr + 24) 8) = n
  generalize num (memBytes mem (ptr + 32) 8) = i
  split_ifs with h1 h2 h3 h4 h5 h6
  · exact ⟨fun _ h => (by cases h), fun _ _ h => (by cases h)⟩
  · exact ⟨fun _ h => (by cases h), fun _ _ h => (by cases h)⟩
  · exact ⟨fun h => absurd h3 h, fun _ _ h => (by cases h)⟩
  · exact ⟨fun _ h => (by cases h), fun _ _ h => (by cases h)⟩
  · refine ⟨fun _ h => (by cases h), fun s' p h => ?_⟩
    cases h
    exact ⟨by omega, by omega, .inl rfl⟩
  · exact ⟨fun _ h => (by cases h), fun _ _ h => (by cases h)⟩
  · refine ⟨fun _ h => (by cases h), fun s' p h => ?_⟩
    rw [Simple.MapResult.ok.injEq] at h
    obtain ⟨rfl, rfl⟩ := h
    refine ⟨by omega, by omega, .inr ⟨withBlock_mem _ _ _ _, withBlock_base _ _ _ _, ?_⟩⟩
    unfold placeAt
    rw [withBlock_base, withBlock_states]

/-- DEFECT: mapping a saved EMPTY scanner into a scanner leaves that scanner as it was. -/
theorem C36_simple_mmap_empty_keeps_self (self : Simple) (hn : s.statesCount < 2 ^ 64) (he : s.empty = true) {mem : Mem} {ptr size : Nat}
    (ha : ptr % 8 = 0) (hs : ptr + 8 * size < 2 ^ 64) (hmem : memBytes mem ptr s.save.length = s.save) (hsz : s.save.length ≤ size) :
    Simple.mmap self mem ptr size = .ok self (ptr + s.save.length) := by
  obtain ⟨m1, m2, m3, m4, m5⟩ := saved_in_memory hn hmem
  have hl := length_save s
  rw [he, if_pos rfl] at hl
  rw [hl] at hsz ⊢
  rw [Simple.mmap_eq self mem ha hs, m2, m3, m4, he, if_neg (by omega), if_neg (by rw [m1]; decide), if_neg (by omega), if_neg (by omega),
    if_pos (by decide)]

/-- DEFECT: given exactly the header and the locals, `Mmap` reads the flag after them. -/
theorem C36_simple_reads_past_the_end (self : Simple) (hn : s.statesCount < 2 ^ 64) {mem : Mem} {ptr : Nat} (ha : ptr % 8 = 0)
    (hs : ptr + 8 * 40 < 2 ^ 64) (hmem : memBytes mem ptr s.save.length = s.save) : Simple.mmap self mem ptr 40 = .overread := by
  obtain ⟨m1, m2, m3, m4, m5⟩ := saved_in_memory hn hmem
  rw [Simple.mmap_eq self mem ha hs, if_neg (by omega), if_neg (by rw [m1]; decide), if_pos rfl]

/-- DEFECT: input that lacks up to seven of the saved bytes is accepted, and the scanner's block ends outside of it. -/
theorem C36_simple_short_input_accepted (hv : s.Valid) (self : Simple) {mem : Mem} {ptr size : Nat} (ha : ptr % 8 = 0)
    (hs : ptr + 8 * size < 2 ^ 64) (hmem : memBytes mem ptr s.save.length = s.save)
    (h1 : size < s.save.length) (h2 : s.save.length ≤ size + 7) :
    ∃ s' p, Simple.mmap self mem ptr size = .ok s' p ∧ ptr + size < s'.base + bufSize s'.statesCount := by
  obtain ⟨⟨T, hT⟩, he, hb⟩ := hv
  obtain ⟨m1, m2, m3, m4, m5⟩ := saved_in_memory hT.states_lt hmem
  have hl := length_save s
  rw [he, if_neg (by decide)] at hl
  have hlt := hT.bufSize_lt hb
  have hpos : 8 ≤ bufSize s.statesCount := by
    have := hT.initial_bounds.2
    unfold bufSize at this ⊢
    omega
  refine ⟨placeAt s.statesCount s.savedInitial (ptr + 48) mem, ptr + 48 + bufSize s.statesCount, ?_, by unfold placeAt; rw [withBlock_base, withBlock_states]; omega⟩
  rw [Simple.mmap_eq self mem ha hs, m2, m3, m4, he, if_neg (by omega), if_neg (by rw [m1]; decide), if_neg (by omega), if_neg (by omega),
    if_neg (by decide), Nat.mod_eq_of_lt hlt, if_neg (by omega)]

end

/-! ### The hypotheses are met -/

/-- The pattern `ab`, searched for anywhere. -/
theorem abAnywhere_simple (base : Nat) (ha : base % 8 = 0) (h0 : 0 < base) (hb : base ≤ 2 ^ 63) :
    ∃ f s, build abAnywhere = some f ∧ Simple.compile base f = some s ∧ s.Valid ∧ Simple.Recognizes s abAnywhere.den ∧ s.statesCount ≤ 200001 := by
  have ok : abAnywhere.Ok := show IsWord [97, 98] by unfold IsWord; decide
  have hf : build abAnywhere = some (Fsm.init.appendStr [97, 98]).surround := rfl
  have hg := (build_spec abAnywhere ok _ hf).1
  have hn := abAnywhere_undetermined
  obtain ⟨g, hgc⟩ := canonize_small hg (show (Fsm.init.appendStr [97, 98]).surround.size ≤ 17 by decide +kernel)
  have hsz := Fsm.canonize_size hg hgc
  rw [hn, if_neg (by decide), if_neg (by decide)] at hsz
  have hst : (compileCanonized base g).statesCount = g.size := by
    rw [compileCanonized_eq]; exact (writes_rest _ _).1
  have hs : Simple.compile base (Fsm.init.appendStr [97, 98]).surround = some (compileCanonized base g) := by
    unfold Simple.compile; rw [hgc]; rfl
  have hsp : base + bufSize (compileCanonized base g).statesCount ≤ 2 ^ 64 := by
    rw [hst]; unfold bufSize; have hM : rowSize = 265 := rfl; rw [hM]; omega
  refine ⟨_, _, hf, hs, C23_simple_valid hg (build_tagsIn _ (fun a b ha hb => by subst ha; subst hb; rfl) _ _ hf) hs ha h0 hsp,
    C23_simple_expression _ ok hf hs ha hsp, by rw [hst]; omega⟩

/-- It is copied, saved, loaded and mapped. -/
example (null : Simple) (rest : Bytes) : ∃ s s' s'' s3 : Simple, ∃ mem, Simple.Recognizes s abAnywhere.den ∧
    Simple.load null 8192 (s.save ++ rest) = some (s', rest) ∧ Simple.Recognizes s' abAnywhere.den ∧
    s'' = copyCtor true 4096 s ∧ Simple.Recognizes s'' abAnywhere.den ∧
    Simple.mmap null mem 64 s.save.length = .ok s3 (64 + s.save.length) ∧ Simple.Recognizes s3 abAnywhere.den := by
  obtain ⟨f, s, hf, hs, hv, hR, hn⟩ := abAnywhere_simple 64 rfl (by omega) (by omega)
  have hbs : bufSize s.statesCount ≤ 2 ^ 40 := by
    unfold bufSize; have hM : rowSize = 265 := rfl; rw [hM]; omega
  obtain ⟨s', e1, e2, -⟩ := C35_simple_round_trip (base := 8192) hv hR null rfl (by omega) (by omega) rest
  have hlen : s.save.length = 48 + bufSize s.statesCount := by rw [length_save, hv.2.1, if_neg (by decide)]
  obtain ⟨s3, g1, g2, -⟩ := C36_simple_mmap_saved (mem := Multi.blockMem 64 s.save) (ptr := 64) (size := s.save.length) hv hR null rfl
    (by omega) (memBytes_blockMem 64 s.save) (by omega)
  exact ⟨s, s', _, s3, _, hR, e1, e2, rfl, (C37_simple_copy hv hR true rfl (by omega) (by omega)).1, g1, g2⟩

/-- DEFECT (outside of the hypotheses of `C23_simple_decides`): a state with a nonzero tag is `Final`, even if it is not final in
the automaton: the scanner compiled from the automaton of nothing, with tag 4 on its state, accepts the empty word. -/
theorem C23_simple_tag_is_final : ∃ f : Fsm, f.Lang = 0 ∧ f.TagsIn (fun t => t % 4 = 0) ∧
    (match Simple.compile 64 f with | some s => s.final s.initial | none => false) = true := by
  refine ⟨{ Fsm.makeFalse with tags := fun q => if q = 0 then some 4 else none }, ?_, ?_, ?_⟩
  · exact lang_makeFalse
  · intro q t hq
    simp only at hq
    split at hq
    · cases hq; rfl
    · cases hq
  · decide +kernel

end Props
end Pire
