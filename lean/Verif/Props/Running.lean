import Verif.Proofs.Prefix
import Verif.Proofs.PrefixGap
import Verif.Proofs.Bytes

/-!
# Properties C28–C34, C51, C52: running scanners over memory

`sc : Scn σ α` is any scanner; `sc.after st w` is the state after feeding `w` letter by letter with `Step`; `bytesAt mem b n`
are the `n` bytes at address `b` (Spec/Running.lean).  Addresses are arbitrary, so every alignment and every length is
covered, and so is everything that happens to be in memory around the text.
-/

namespace Pire.Props

open Pire Pire.Spec Pire.Scn

/-- The platforms: SSE2, MMX, neither. -/
def Platform (isa : Isa) : Prop := isa = sse2 ∨ isa = mmx ∨ isa = basicIsa

theorem Platform.sound {isa : Isa} (h : Platform isa) : Scn.Isa.Sound isa := by
  rcases h with rfl | rfl | rfl
  · exact sse2_sound
  · exact mmx_sound
  · exact basicIsa_sound

/-! ### A scanner to instantiate the hypotheses with -/

/-- `.*ab.*`: 0 = nothing seen, 1 = `a` seen, 2 = found, 3 = the end mark was seen too early. -/
def demo : Scn Nat Unit where
  initial := 0
  next := fun st c => (match st with
    | 0 => if c = 97 then 1 else if c = EndMark then 3 else 0
    | 1 => if c = 98 then 2 else if c = 97 then 1 else if c = EndMark then 3 else 0
    | n => n, ())
  takeAction := fun st _ => st
  final := fun st => st == 2
  dead := fun st => st == 3

/-- Its exit masks: state 0 is left by `a` only, states 2 and 3 are never left. -/
def demoMasks : Masks Nat := fun st => match st with
  | 0 => some (fillSizeT 97, fillSizeT 97)
  | 1 => some (1, 1)
  | _ => some (2, 2)

theorem demo_closed : Closed demo (· ≤ 3) := by
  intro st c h _
  simp only [Scn.step, demo]
  split
  · split <;> [omega; split <;> omega]
  · split <;> [omega; split <;> [omega; split <;> omega]]
  · exact h

theorem demo_stay (w : List Nat) : demo.after 3 w = 3 := by
  induction w with
  | nil => rfl
  | cons c w ih => rw [after_cons]; exact ih

theorem demo_deadSound : DeadSound demo (· ≤ 3) := by
  intro st _ hd w _
  have : st = 3 := by simpa [demo] using hd
  subst this
  rw [demo_stay]; rfl

theorem demo_masks (st : Nat) : MaskSound demoMasks demo st := by
  rcases st with _ | _ | st
  · exact ⟨fun h => absurd h (by decide), fun _ _ => ⟨97, 97, by omega, by omega, rfl, fun c hc h _ => by
      simp only [Scn.step, demo, h, if_false]
      rw [if_neg (by simp only [EndMark]; omega)]⟩⟩
  · exact ⟨fun h => absurd h (by decide), fun h => absurd h (by decide)⟩
  · exact ⟨fun _ c _ => rfl, fun _ h => absurd h (by simp [Masks.noExit, demoMasks])⟩

/-- Text `xxab`. -/
def demoMem : Mem := fun i => match i with
  | 6 => 97
  | 7 => 98
  | _ => 120

/-! ### C28 -/

section
variable {σ α σ' α' : Type}

/-- `Run` = feeding the bytes one at a time, for every address and length. -/
theorem C28_run_is_stepwise (sc : Scn σ α) (mem : Mem) {b e : Nat} (hbe : b ≤ e) (st : σ) :
    sc.run mem b e st = sc.after st (bytesAt mem b (e - b)) := run_eq sc mem hbe st

/-- ... so the result depends only on the bytes of the text: neither on its address nor on the memory around it (whole
words are read, including bytes before the beginning of the text). -/
theorem C28_position_independent (sc : Scn σ α) (mem mem' : Mem) {b e b' e' : Nat} (h : b ≤ e) (hlen : e' = b' + (e - b))
    (hsame : ∀ i < e - b, mem (b + i) = mem' (b' + i)) (st : σ) : sc.run mem b e st = sc.run mem' b' e' st := by
  rw [run_eq sc mem h, run_eq sc mem' (by omega), show e' - b' = e - b by omega]
  congr 1
  have : ∀ n b b', (∀ i < n, mem (b + i) = mem' (b' + i)) → bytesAt mem b n = bytesAt mem' b' n := by
    intro n
    induction n with
    | zero => intros; rfl
    | succ n ih =>
      intro b b' h
      rw [bytesAt, bytesAt, ih (b + 1) (b' + 1) (fun i hi => by
        have := h (i + 1) (by omega)
        rwa [show b + (i + 1) = b + 1 + i by omega, show b' + (i + 1) = b' + 1 + i by omega] at this)]
      have := h 0 (by omega)
      rw [Nat.add_zero, Nat.add_zero] at this
      rw [this]
  exact this _ _ _ hsame

example : demo.run demoMem 5 8 0 = 2 := by rw [C28_run_is_stepwise _ _ (by omega)]; decide
example : demo.run demoMem 3 7 0 = 1 := by rw [C28_run_is_stepwise _ _ (by omega)]; decide

/-! ### C29 -/

/-- With exit masks that tell the truth, skipping whole words and stopping early in a no-exit state does not change the
state `Run` ends in, on every platform. (For compiled scanners the masks do tell the truth: C23.) -/
theorem C29_shortcuts_keep_result {isa : Isa} (hisa : Platform isa) (m : Masks σ) (sc : Scn σ α) (V : σ → Prop)
    (hc : Closed sc V) (hm : ∀ st, V st → MaskSound m sc st) (mem : Mem) {b e : Nat} (hbe : b ≤ e) {st : σ} (hv : V st) :
    sc.runMulti isa m mem b e st = sc.after st (bytesAt mem b (e - b)) := runMulti_eq hc hm hisa.sound mem hbe hv

example (mem : Mem) (e : Nat) (h : 3 ≤ e) : demo.runMulti sse2 demoMasks mem 3 e 0 = demo.after 0 (bytesAt mem 3 (e - 3)) :=
  C29_shortcuts_keep_result (.inl rfl) demoMasks demo (· ≤ 3) demo_closed (fun st _ => demo_masks st) mem h (by omega)

theorem maskSound_none (sc : Scn σ α) (st : σ) : MaskSound (fun _ => none) sc st :=
  ⟨fun h => by simp [Masks.noExit] at h, fun h => by simp [Masks.noShortcut] at h⟩

/-- The same for the `NoShortcuts` policy, without hypotheses. -/
theorem C29_no_shortcuts {isa : Isa} (hisa : Platform isa) (sc : Scn σ α) (mem : Mem) {b e : Nat} (hbe : b ≤ e) (st : σ) :
    sc.runMulti isa (fun _ => none) mem b e st = sc.after st (bytesAt mem b (e - b)) :=
  runMulti_eq (V := fun _ => True) (fun _ _ _ _ => trivial) (fun st _ => maskSound_none sc st) hisa.sound mem hbe trivial

/-! ### C30 -/

/-- Running `[b, x)` and then `[x, e)` is running `[b, e)`. -/
theorem C30_incremental (sc : Scn σ α) (mem : Mem) {b x e : Nat} (h1 : b ≤ x) (h2 : x ≤ e) (st : σ) :
    sc.run mem x e (sc.run mem b x st) = sc.run mem b e st := by
  rw [run_eq sc mem h1, run_eq sc mem h2, run_eq sc mem (by omega), show e - b = (x - b) + (e - x) by omega, bytesAt_add,
    show b + (x - b) = x by omega, List.foldl_append]

/-- The same when the parts lie in different buffers: only the concatenation of the bytes matters. -/
theorem C30_incremental_buffers (sc : Scn σ α) (mem1 mem2 mem : Mem) {b1 e1 b2 e2 b e : Nat} (h1 : b1 ≤ e1) (h2 : b2 ≤ e2) (h : b ≤ e)
    (hcat : bytesAt mem b (e - b) = bytesAt mem1 b1 (e1 - b1) ++ bytesAt mem2 b2 (e2 - b2)) (st : σ) :
    sc.run mem2 b2 e2 (sc.run mem1 b1 e1 st) = sc.run mem b e st := by
  rw [run_eq sc mem1 h1, run_eq sc mem2 h2, run_eq sc mem h, hcat, List.foldl_append]

/-- The same with shortcuts. -/
theorem C30_incremental_shortcuts {isa : Isa} (hisa : Platform isa) (m : Masks σ) (sc : Scn σ α) (V : σ → Prop)
    (hc : Closed sc V) (hm : ∀ st, V st → MaskSound m sc st) (mem : Mem) {b x e : Nat} (h1 : b ≤ x) (h2 : x ≤ e) {st : σ} (hv : V st) :
    sc.runMulti isa m mem x e (sc.runMulti isa m mem b x st) = sc.runMulti isa m mem b e st := by
  have hb : V (sc.after st (bytesAt mem b (x - b))) := hc.after hv (bb mem b (x - b)).lt
  rw [runMulti_eq hc hm hisa.sound mem h1 hv, runMulti_eq hc hm hisa.sound mem h2 hb,
    runMulti_eq hc hm hisa.sound mem (show b ≤ e by omega) hv, show e - b = (x - b) + (e - x) by omega, bytesAt_add,
    show b + (x - b) = x by omega, after_append]

/-- `Runner(sc).Begin().Run(text).End()` accepts iff the word `^text$` (begin mark, bytes, end mark) leads to a final state. -/
theorem C30_runner_marks (sc : Scn σ α) (mem : Mem) {b e : Nat} (h : b ≤ e) :
    sc.runnerBeginEnd mem b e = sc.final (sc.after sc.initial (BeginMark :: bytesAt mem b (e - b) ++ [EndMark])) := by
  unfold runnerBeginEnd
  simp only
  rw [run_eq sc mem h, List.cons_append, after_cons, after_append]
  rfl

example : demo.runnerBeginEnd demoMem 5 9 = true := by rw [C30_runner_marks _ _ (by omega)]; decide
example : demo.runnerBeginEnd demoMem 5 7 = false := by rw [C30_runner_marks _ _ (by omega)]; decide

/-! ### C31 -/

/-- `LongestPrefix` of a scanner without specialised runner. -/
theorem C31_longest_prefix (sc : Scn σ α) (V : σ → Prop) (hc : Closed sc V) (hd : DeadSound sc V) (hv : V sc.initial)
    (mem : Mem) {b e : Nat} (hbe : b ≤ e) (throughBegin throughEnd : Bool) :
    longestSpec sc (bytesAt mem b (e - b)) throughBegin throughEnd b (sc.longestPrefix mem b e throughBegin throughEnd) := by
  refine longestWith_spec hc hv (by rw [bytesAt_length]; omega) ?_ throughBegin throughEnd
  intro st acc hs
  have := naive_longest hc hd (bb mem b (e - b)) b hs acc
  rw [doRun_eq (fun b e st acc h1 h2 h3 => runAligned_eq sc _ mem h1 (by omega) st acc) hbe]
  exact ⟨_, this⟩

example (mem : Mem) (e : Nat) (h : 5 ≤ e) : longestSpec demo (bytesAt mem 5 (e - 5)) true true 5 (demo.longestPrefix mem 5 e true true) :=
  C31_longest_prefix demo (· ≤ 3) demo_closed demo_deadSound (by decide) mem h true true

/-- ... of the multi-regexp scanner with the `NoShortcuts` policy. -/
theorem C31_longest_prefix_no_shortcuts {isa : Isa} (hisa : Platform isa) (sc : Scn σ α) (V : σ → Prop) (hc : Closed sc V)
    (hd : DeadSound sc V) (hv : V sc.initial) (mem : Mem) {b e : Nat} (hbe : b ≤ e) (throughBegin throughEnd : Bool) :
    longestSpec sc (bytesAt mem b (e - b)) throughBegin throughEnd b
      (sc.longestPrefixMulti isa (fun _ => none) mem b e throughBegin throughEnd) :=
  longestWith_spec hc hv (by rw [bytesAt_length]; omega) (fun st acc hs =>
    doRun_spec (long_runSpec hc hd (fun st _ => maskSound_none sc st) fun st _ _ => .inl rfl) hisa.sound hbe st acc hs) throughBegin throughEnd

/-- ... with exit masks, provided that no final state has shortcuts (a final no-exit state is fine). What is missing: final
states with shortcuts, for which the claim is false (`C31_exit_masks_too_short`). -/
theorem C31_longest_prefix_exit_masks_partial {isa : Isa} (hisa : Platform isa) (m : Masks σ) (sc : Scn σ α) (V : σ → Prop)
    (hc : Closed sc V) (hd : DeadSound sc V) (hm : ∀ st, V st → MaskSound m sc st) (hv : V sc.initial)
    (hg : ∀ st, V st → sc.final st = true → m.noShortcut st = true ∨ m.noExit st = true)
    (mem : Mem) {b e : Nat} (hbe : b ≤ e) (throughBegin throughEnd : Bool) :
    longestSpec sc (bytesAt mem b (e - b)) throughBegin throughEnd b (sc.longestPrefixMulti isa m mem b e throughBegin throughEnd) :=
  longestWith_spec hc hv (by rw [bytesAt_length]; omega) (fun st acc hs =>
    doRun_spec (long_runSpec hc hd hm hg) hisa.sound hbe st acc hs) throughBegin throughEnd

example (mem : Mem) (e : Nat) (h : 5 ≤ e) :
    longestSpec demo (bytesAt mem 5 (e - 5)) true false 5 (demo.longestPrefixMulti sse2 demoMasks mem 5 e true false) :=
  C31_longest_prefix_exit_masks_partial (.inl rfl) demoMasks demo (· ≤ 3) demo_closed demo_deadSound (fun st _ => demo_masks st)
    (by decide) (fun st hs hf => by
      have : st = 2 := by simpa [demo] using hf
      subst this; exact .inr rfl) mem h true false

/-- With exit masks in general: some accepted prefix is returned, and null only if no prefix is accepted. -/
theorem C31_exit_masks_some_prefix {isa : Isa} (hisa : Platform isa) (m : Masks σ) (sc : Scn σ α) (V : σ → Prop)
    (hc : Closed sc V) (hd : DeadSound sc V) (hm : ∀ st, V st → MaskSound m sc st) (hv : V sc.initial)
    (mem : Mem) {b e : Nat} (hbe : b ≤ e) (throughBegin throughEnd : Bool) :
    someSpec sc (bytesAt mem b (e - b)) throughBegin throughEnd b (sc.longestPrefixMulti isa m mem b e throughBegin throughEnd) :=
  someWith_spec hc hv (by rw [bytesAt_length]; omega) (fun st acc hs hi =>
    doRun_spec (weak_runSpec hc hd hm) hisa.sound hbe st acc ⟨hs, hi⟩) throughBegin throughEnd

/-- A scanner for `a[^b]*`. -/
def aNotB : Scn Nat Unit where
  initial := 0
  next := fun st c => (match st with
    | 0 => if c = 97 then 1 else 2
    | 1 => if c = 98 ∨ 256 ≤ c then 2 else 1
    | n => n, ())
  takeAction := fun st _ => st
  final := fun st => st == 1
  dead := fun st => st == 2

/-- Its exit masks: state 1 is left by `b` only, state 2 is never left. -/
def aNotBMasks : Masks Nat := fun st => match st with
  | 0 => some (1, 1)
  | 1 => some (fillSizeT 98, fillSizeT 98)
  | _ => some (2, 2)

/-- `accc...` at address 0. -/
def acccMem : Mem := fun i => if i = 0 then 97 else 99

theorem aNotB_masks (st : Nat) : MaskSound aNotBMasks aNotB st := by
  rcases st with _ | _ | st
  · exact ⟨fun h => absurd h (by decide), fun h => absurd h (by decide)⟩
  · refine ⟨fun h => absurd h (by decide), fun _ _ => ⟨98, 98, by omega, by omega, rfl, fun c hc h _ => ?_⟩⟩
    simp only [Scn.step, aNotB]
    rw [if_neg (by omega)]
  · exact ⟨fun _ c _ => rfl, fun _ h => absurd h (by simp [Masks.noExit, aNotBMasks])⟩

/-- `LongestPrefix` with exit masks is too short: on the 32 bytes `accc...c` (all accepted by `a[^b]*`) it returns 16. -/
theorem C31_exit_masks_too_short :
    (∀ st, MaskSound aNotBMasks aNotB st) ∧
    aNotB.longestPrefixMulti sse2 aNotBMasks acccMem 0 32 false false = some 16 ∧
    aNotB.final (aNotB.after aNotB.initial (bytesAt acccMem 0 32)) = true := by
  refine ⟨aNotB_masks, by decide +kernel, by decide +kernel⟩

/-- With exit masks in general, how much may be missing: if the returned prefix has length `j` and a prefix of length
`k ≥ j` is accepted too, then between `j` and `k` the scanner does not leave its state - that is, a longest match is cut
short only within a run of bytes that loop in one and the same final state. -/
theorem C31_exit_masks_gap {isa : Isa} (hisa : Platform isa) (m : Masks σ) (sc : Scn σ α) (V : σ → Prop)
    (hc : Closed sc V) (hd : DeadSound sc V) (hm : ∀ st, V st → MaskSound m sc st) (hv : V sc.initial)
    (mem : Mem) {b e : Nat} (hbe : b ≤ e) (throughBegin throughEnd : Bool) {j k : Nat}
    (hj : sc.longestPrefixMulti isa m mem b e throughBegin throughEnd = some (b + j)) (hk : k ≤ e - b)
    (hacc : sc.final (sc.after (startState sc BeginMark throughBegin) (bytesAt mem b k)) = true)
    {i : Nat} (hji : j ≤ i) (hik : i ≤ k) :
    sc.after (startState sc BeginMark throughBegin) (bytesAt mem b i) =
      sc.after (startState sc BeginMark throughBegin) (bytesAt mem b j) := by
  have ht : ∀ x, x ≤ e - b → (bytesAt mem b (e - b)).take x = bytesAt mem b x := by
    intro x hx
    rw [show e - b = x + (e - b - x) by omega, bytesAt_add, List.take_append_of_le_length (by rw [bytesAt_length])]
    rw [List.take_of_length_le (by rw [bytesAt_length])]
  have := gapWith_spec hc hv (text := bytesAt mem b (e - b)) (by rw [bytesAt_length]; omega) (fun st acc hs hi =>
    doRun_spec (gap_runSpec hc hd hm) hisa.sound hbe st acc ⟨hs, hi⟩) throughBegin throughEnd hj (k := k)
    (by rw [bytesAt_length]; exact hk) (by rw [ht k hk]; exact hacc) hji hik
  rwa [ht i (by omega), ht j (by omega)] at this

theorem aNotB_closed : Closed aNotB (fun _ => True) := fun _ _ _ _ => trivial

theorem aNotB_deadSound : DeadSound aNotB (fun _ => True) := by
  intro st _ h w hw
  have hst : st = 2 := by simpa [aNotB] using h
  subst hst
  have : aNotB.after 2 w = 2 := by
    clear h hw
    induction w with
    | nil => rfl
    | cons c w ih => rw [after_cons]; exact ih
  rw [this]; rfl

/-- For instance in the case above, where 16 is returned although all of the 32 bytes are accepted. -/
example (i : Nat) (h : 16 ≤ i) (h' : i ≤ 32) : aNotB.after 0 (bytesAt acccMem 0 i) = aNotB.after 0 (bytesAt acccMem 0 16) :=
  C31_exit_masks_gap (b := 0) (e := 32) (j := 16) (k := 32) (.inl rfl) aNotBMasks aNotB (fun _ => True) aNotB_closed aNotB_deadSound
    (fun st _ => aNotB_masks st) trivial acccMem (by omega) false false C31_exit_masks_too_short.2.1 (by omega)
    C31_exit_masks_too_short.2.2 h h'

/-! ### C32 -/

/-- `ShortestPrefix` of a scanner without specialised runner. -/
theorem C32_shortest_prefix (sc : Scn σ α) (V : σ → Prop) (hc : Closed sc V) (hd : DeadSound sc V) (hv : V sc.initial)
    (mem : Mem) {b e : Nat} (hbe : b ≤ e) (throughBegin throughEnd : Bool) :
    shortestSpec sc (bytesAt mem b (e - b)) throughBegin throughEnd b (sc.shortestPrefix mem b e throughBegin throughEnd) := by
  refine shortestWith_spec hc hv (by rw [bytesAt_length]; omega) ?_ throughBegin throughEnd
  intro st hs _
  have := naive_shortest hc hd (bb mem b (e - b)) b hs
  rw [doRun_eq (fun b e st acc h1 h2 h3 => runAligned_eq sc _ mem h1 (by omega) st acc) hbe]
  exact ⟨_, this⟩

/-- ... and of the multi-regexp scanner, shortcuts included. -/
theorem C32_shortest_prefix_exit_masks {isa : Isa} (hisa : Platform isa) (m : Masks σ) (sc : Scn σ α) (V : σ → Prop)
    (hc : Closed sc V) (hd : DeadSound sc V) (hm : ∀ st, V st → MaskSound m sc st) (hv : V sc.initial)
    (mem : Mem) {b e : Nat} (hbe : b ≤ e) (throughBegin throughEnd : Bool) :
    shortestSpec sc (bytesAt mem b (e - b)) throughBegin throughEnd b (sc.shortestPrefixMulti isa m mem b e throughBegin throughEnd) :=
  shortestWith_spec hc hv (by rw [bytesAt_length]; omega) (fun st hs hf =>
    doRun_spec (short_runSpec hc hd hm) hisa.sound hbe st none ⟨hs, rfl, hf⟩) throughBegin throughEnd

example (mem : Mem) (e : Nat) (h : 5 ≤ e) :
    shortestSpec demo (bytesAt mem 5 (e - 5)) true true 5 (demo.shortestPrefixMulti basicIsa demoMasks mem 5 e true true) :=
  C32_shortest_prefix_exit_masks (.inr (.inr rfl)) demoMasks demo (· ≤ 3) demo_closed demo_deadSound (fun st _ => demo_masks st)
    (by decide) mem h true true

/-! ### C33 (pointers here are the code's pointers plus one: `rend = begin - 1` must not be negative) -/

/-- `LongestSuffix`, with every combination of the mark flags. -/
theorem C33_longest_suffix (sc : Scn σ α) (V : σ → Prop) (hc : Closed sc V) (hd : DeadSound sc V) (hv : V sc.initial)
    (mem : Mem) {rb re : Nat} (h : re ≤ rb) (throughEnd throughBegin : Bool) :
    longestSuffixSpec sc (bytesBack mem rb (rb - re)) throughEnd throughBegin rb (sc.longestSuffix mem rb re throughEnd throughBegin) :=
  longestSuffix_spec hc hd hv mem h throughEnd throughBegin

/-- `ShortestSuffix` without the begin mark, for scanners without actions (it calls `Next`, not `Step`). -/
theorem C33_shortest_suffix_partial (sc : Scn σ α) (V : σ → Prop) (hc : Closed sc V) (hd : DeadSound sc V) (hv : V sc.initial)
    (hact : ∀ st c, sc.step st c = (sc.next st c).1) (mem : Mem) {rb re : Nat} (h : re ≤ rb) (throughEnd : Bool) :
    ∃ k, Shortest (fun k => sc.final (sc.after (startState sc EndMark throughEnd) ((bytesBack mem rb (rb - re)).take k)) = true) (rb - re) k ∧
      sc.shortestSuffix mem rb re throughEnd false = k.map (rb - ·) :=
  shortestSuffix_spec hc hd hv hact mem h throughEnd

/-- The text read backwards: what the suffix searches see is the reverse of the text. -/
theorem C33_reads_reverse (mem : Mem) (rb n : Nat) (h : n ≤ rb) : bytesBack mem rb n = (bytesAt mem (rb - n) n).reverse := by
  induction n generalizing rb with
  | zero => rfl
  | succ n ih =>
    rw [bytesBack, ih (rb - 1) (by omega), bytesAt_add mem (rb - (n + 1)) n 1, List.reverse_append]
    rw [show rb - 1 - n = rb - (n + 1) by omega, show rb - (n + 1) + n = rb - 1 by omega]
    rfl

example (mem : Mem) (rb : Nat) (h : 5 ≤ rb) :
    longestSuffixSpec demo (bytesBack mem rb (rb - 5)) true true rb (demo.longestSuffix mem rb 5 true true) :=
  C33_longest_suffix demo (· ≤ 3) demo_closed demo_deadSound (by decide) mem h true true

/-- `ShortestSuffix(..., throughBeginMark = true)` is wrong: the begin mark is fed also when the search stopped in the middle
of the text. The scanner accepts `a` but not `a` followed by the mark; the text is `ca`: null is returned, although the
suffix `a` is accepted. -/
theorem C33_shortest_suffix_begin_mark_is_wrong :
    aNotB.shortestSuffix (fun i => if i = 1 then 97 else 99) 2 0 false true = none ∧
    aNotB.shortestSuffix (fun i => if i = 1 then 97 else 99) 2 0 false false = some 1 ∧
    aNotB.final (aNotB.after aNotB.initial ((bytesBack (fun i => if i = 1 then 97 else 99) 2 2).take 1)) = true := by
  refine ⟨by decide +kernel, by decide +kernel, by decide +kernel⟩

/-- What `ShortestSuffix(..., throughBeginMark = true)` does in every case: the search stops at the shortest accepted suffix
(if there is one), the begin mark is then fed *there*, and null is returned unless the scanner is still in a final state. If
no suffix is accepted, the answer is the right one: the whole text iff the text followed by the mark is accepted. -/
theorem C33_shortest_suffix_begin_mark (sc : Scn σ α) (V : σ → Prop) (hc : Closed sc V) (hd : DeadSound sc V) (hv : V sc.initial)
    (hact : ∀ st c, sc.step st c = (sc.next st c).1) (mem : Mem) {rb re : Nat} (h : re ≤ rb) (throughEnd : Bool) :
    ∃ k, Shortest (fun k => sc.final (sc.after (startState sc EndMark throughEnd) ((bytesBack mem rb (rb - re)).take k)) = true) (rb - re) k ∧
      sc.shortestSuffix mem rb re throughEnd true = match k with
        | some k => if sc.final (sc.after (startState sc EndMark throughEnd) ((bytesBack mem rb (rb - re)).take k ++ [BeginMark])) = true
            then some (rb - k) else none
        | none => if sc.final (sc.after (startState sc EndMark throughEnd) (bytesBack mem rb (rb - re) ++ [BeginMark])) = true
            then some re else none :=
  shortestSuffix_mark_spec hc hd hv hact mem h throughEnd

example (mem : Mem) (rb : Nat) (h : 5 ≤ rb) (throughEnd : Bool) :
    ∃ k, Shortest (fun k => aNotB.final (aNotB.after (startState aNotB EndMark throughEnd) ((bytesBack mem rb (rb - 5)).take k)) = true) (rb - 5) k ∧
      aNotB.shortestSuffix mem rb 5 throughEnd true = match k with
        | some k => if aNotB.final (aNotB.after (startState aNotB EndMark throughEnd) ((bytesBack mem rb (rb - 5)).take k ++ [BeginMark])) = true
            then some (rb - k) else none
        | none => if aNotB.final (aNotB.after (startState aNotB EndMark throughEnd) (bytesBack mem rb (rb - 5) ++ [BeginMark])) = true
            then some 5 else none :=
  C33_shortest_suffix_begin_mark aNotB (fun _ => True) aNotB_closed aNotB_deadSound trivial (fun _ _ => rfl) mem h throughEnd

/-! ### C34 -/

theorem pair_after (a : Scn σ α) (b : Scn σ' α') (s : σ) (s' : σ') (w : List Nat) :
    (pair a b).after (s, s') w = (a.after s w, b.after s' w) := by
  induction w generalizing s s' with
  | nil => rfl
  | cons c w ih => rw [after_cons, after_cons, after_cons, ← ih]; rfl

/-- Running a pair of scanners leaves each in the state it would have reached alone. -/
theorem C34_pair (a : Scn σ α) (b : Scn σ' α') (mem : Mem) {beg en : Nat} (h : beg ≤ en) (s : σ) (s' : σ') :
    run2 a b mem beg en s s' = (a.run mem beg en s, b.run mem beg en s') := by
  unfold run2
  rw [run_eq _ mem h, run_eq _ mem h, run_eq _ mem h]
  exact pair_after a b s s' _

/-- The pair is final iff one of the scanners is; it is dead only if both are. -/
theorem C34_pair_final (a : Scn σ α) (b : Scn σ' α') (mem : Mem) {beg en : Nat} (h : beg ≤ en) :
    (pair a b).matches_ mem beg en = (a.matches_ mem beg en || b.matches_ mem beg en) := by
  have := C34_pair a b mem h a.initial b.initial
  unfold run2 at this
  show (pair a b).final ((pair a b).run mem beg en (a.initial, b.initial)) = _
  rw [this]
  rfl

end

/-! ### C51 -/

/-- The word-at-a-time check without SIMD instructions hits iff some byte of the chunk equals the byte of the mask at the
same place, for all 64-bit masks and chunks. -/
theorem C51_byte_search (mask chunk : BitVec 64) :
    checkBytes mask chunk ≠ 0#64 ↔ ∃ i < 8, (chunk >>> (8 * i)).toNat % 256 = (mask >>> (8 * i)).toNat % 256 := by
  rw [checkBytes_ne]
  refine exists_congr fun i => and_congr_right fun _ => ?_
  unfold byteOf
  rw [BitVec.toNat_ushiftRight, BitVec.toNat_ushiftRight]
  rw [show (0xFF : Nat) = 2 ^ 8 - 1 from rfl, Nat.and_two_pow_sub_one_eq_mod, Nat.and_two_pow_sub_one_eq_mod]

/-- Every byte of `FillSizeT(c)` is `c`. -/
theorem C51_fill (c : Nat) (hc : c < 256) (i : Nat) (hi : i < 8) : fillSizeT c / 256 ^ i % 256 = c := by
  rw [← byteOf_eq]; exact byteOf_fill c hc i hi

/-- On every platform: the mask filled with `c` hits iff the word at `p` contains the byte `c`. -/
theorem C51_platforms {isa : Isa} (hisa : Platform isa) (c : Nat) (hc : c < 256) (mem : Mem) (p : Nat) :
    isa.anyByte (fillSizeT c) mem p = true ↔ ∃ i < isa.wordSize, (mem (p + i)).val = c := hisa.sound.any c hc mem p

/-! ### C52 -/

/-- `AlignDown(t, 2^k)` is the greatest multiple of `2^k` not above `t`. -/
theorem C52_align_down (t : BitVec 64) {k : Nat} (hk : k < 64) :
    let r := (alignDownW t (BitVec.ofNat 64 (2 ^ k))).toNat
    r % 2 ^ k = 0 ∧ r ≤ t.toNat ∧ ∀ x, x % 2 ^ k = 0 → x ≤ t.toNat → x ≤ r := by
  have hp : 0 < 2 ^ k := Nat.two_pow_pos k
  simp only
  rw [alignDownW_toNat t hk]
  unfold Scn.alignDown
  refine ⟨Nat.mul_mod_left _ _, Nat.div_mul_le_self _ _, fun x hx hle => ?_⟩
  obtain ⟨q, rfl⟩ := Nat.dvd_of_mod_eq_zero hx
  rw [Nat.mul_comm]
  exact Nat.mul_le_mul_right _ ((Nat.le_div_iff_mul_le hp).2 (by rw [Nat.mul_comm]; exact hle))

/-- `AlignUp(t, 2^k)` is the least multiple of `2^k` not below `t` (when that does not overflow). -/
theorem C52_align_up (t : BitVec 64) {k : Nat} (hk : k < 64) (hov : t.toNat + 2 ^ k ≤ 2 ^ 64) :
    let r := (alignUpW t (BitVec.ofNat 64 (2 ^ k))).toNat
    r % 2 ^ k = 0 ∧ t.toNat ≤ r ∧ ∀ x, x % 2 ^ k = 0 → t.toNat ≤ x → r ≤ x := by
  have hp : 0 < 2 ^ k := Nat.two_pow_pos k
  simp only
  rw [alignUpW_toNat t hk hov]
  unfold Scn.alignUp
  refine ⟨Nat.mul_mod_left _ _, ?_, fun x hx hle => ?_⟩
  · have := Nat.div_add_mod (t.toNat + (2 ^ k - 1)) (2 ^ k)
    have hm := Nat.mod_lt (t.toNat + (2 ^ k - 1)) hp
    rw [Nat.mul_comm]
    omega
  · obtain ⟨q, rfl⟩ := Nat.dvd_of_mod_eq_zero hx
    rw [Nat.mul_comm]
    refine Nat.mul_le_mul_left _ ?_
    rw [Nat.div_le_iff_le_mul_add_pred hp]
    omega

/-- `IsAligned(t, 2^k)` tells whether `t` is a multiple of `2^k`. -/
theorem C52_is_aligned (t : BitVec 64) {k : Nat} (hk : k < 64) :
    isAlignedW t (BitVec.ofNat 64 (2 ^ k)) = true ↔ 2 ^ k ∣ t.toNat := by
  rw [isAlignedW_iff t hk]; exact (Nat.dvd_iff_mod_eq_zero ..).symm

example : (alignUpW 1001#64 (BitVec.ofNat 64 (2 ^ 4))).toNat = 1008 := by decide

end Pire.Props
