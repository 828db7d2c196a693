import Verif.Proofs.CaptureIo
import Verif.Props.CapturePreferredCases

/-!
# C61: slow capturing scanners that are copied, saved and loaded, or mapped
-/

namespace Pire
namespace Props

open Spec Io Parse Enc Loaded Capture
open Multi (memBytes)

variable {f : Fsm} {d : Nat} {self : SlowCap}

/-- What was proved about compiled scanners (C48, C58-C60) is about this scanner: the two models of the compiled scanner run alike. -/
theorem C61_compiled (f : Fsm) (d : Nat) : (∀ w, (SlowCap.compile f d).run w = (slowCompile f d).run w) ∧
    ∀ st, (SlowCap.compile f d).getCapture st = (slowCompile f d).getCapture st := by
  unfold SlowCap.run SlowCap.getCapture
  rw [SlowCap.compile_access]
  exact ⟨(slowCompile f d).access_run, (slowCompile f d).access_getCapture⟩

/-- Saving and loading gives back the very same scanner, actions included, and exactly the written bytes are consumed. -/
theorem C61_round_trip (h : (f.withDistance d).WF) (hs : (f.withDistance d).size ≤ 2 ^ 32) (ht : 4 * SlowCap.jumpsCount f d < 2 ^ 64)
    (hn : self.needActions = true) (rest : Bytes) : SlowCap.load self ((SlowCap.compile f d).save ++ rest) = some (SlowCap.compile f d, rest) :=
  SlowCap.load_save h hs ht hn rest

/-- Loading never looks beyond what it consumes. -/
theorem C61_rest_is_untouched {s' : SlowCap} {b rest : Bytes} (h : SlowCap.load self b = some (s', rest)) :
    ∃ used, b = used ++ rest ∧ ∀ rest', SlowCap.load self (used ++ rest') = some (s', rest') := SlowCap.reader_load self b s' rest h

/-- A stream cut anywhere is rejected. -/
theorem C61_truncated_rejected (h : (f.withDistance d).WF) (hs : (f.withDistance d).size ≤ 2 ^ 32) (ht : 4 * SlowCap.jumpsCount f d < 2 ^ 64)
    (hn : self.needActions = true) {k : Nat} (hk : k < (SlowCap.compile f d).save.length) : SlowCap.load self ((SlowCap.compile f d).save.take k) = none := by
  have e1 := C61_round_trip h hs ht hn []
  rw [List.append_nil] at e1
  exact (SlowCap.reader_load self).truncated e1 hk

/-- Mapping the saved bytes gives a scanner that runs and captures as the saved one, and a pointer just past those bytes. -/
theorem C61_mmap_saved (h : (f.withDistance d).WF) (hs : (f.withDistance d).size ≤ 2 ^ 32) (ht : 4 * SlowCap.jumpsCount f d < 2 ^ 64) (hn : self.needActions = true)
    {mem : Mem} {ptr size : Nat} (ha : ptr % 8 = 0) (hsp : ptr + 8 * size < 2 ^ 64)
    (hm : memBytes mem ptr (SlowCap.compile f d).save.length = (SlowCap.compile f d).save) (hsz : (SlowCap.compile f d).save.length ≤ size) :
    ∃ s', SlowCap.mmap self mem ptr size = .ok s' (ptr + (SlowCap.compile f d).save.length) ∧
      (∀ w, s'.run w = (SlowCap.compile f d).run w) ∧ ∀ st, s'.getCapture st = (SlowCap.compile f d).getCapture st := by
  refine ⟨_, by rw [SlowCap.mmap_save h hs ht self ha hsp hm hsz, if_pos hn], ?_⟩
  rw [hn]
  unfold SlowCap.run SlowCap.getCapture
  rw [SlowCap.mapped_access, SlowCap.compile_access]
  exact ⟨fun _ => rfl, fun _ => rfl⟩

/-- A misaligned pointer is rejected. -/
theorem C61_misaligned_rejected {mem : Mem} {ptr size : Nat} (ha : ptr % 8 ≠ 0) : SlowCap.mmap self mem ptr size = .throws := by
  unfold SlowCap.mmap Slow.mapIn; rw [if_pos ha]

/-- A copy of a compiled (or loaded) scanner is the same scanner. -/
theorem C61_copy (h : (f.withDistance d).WF) : (SlowCap.compile f d).copyCtor = SlowCap.compile f d := by
  have hv : (SlowCap.compile f d).base.vec ≠ [] := by
    exact List.ne_nil_of_length_pos (SlowCap.vec_pos h)
  unfold SlowCap.copyCtor Slow.copyCtor
  rw [if_neg hv, if_neg hv]
  rfl

/-- A copy of a mapped scanner (even of the copy of one) runs and captures as it does. -/
theorem C61_copy_mapped (s : SlowCap) {pos jumps : List Nat} (hj : s.base.jumps = .flat pos jumps) (hv : s.base.vec = []) : s.copyCtor = s := by
  unfold SlowCap.copyCtor Slow.copyCtor
  rw [if_pos hv, if_pos hv, hj]
  obtain ⟨⟨a1, a2, a3, a4, a5, a6, a7, a8⟩, b, c, d⟩ := s
  have hj : a7 = .flat pos jumps := hj
  rw [hj]

/-! ### Defects -/

/-- DEFECT: a plain `SlowScanner` accepts what a capturing one has saved (the header is the same) and leaves the actions in the stream. -/
theorem C61_plain_load_leaves_actions (h : (f.withDistance d).WF) (hs : (f.withDistance d).size ≤ 2 ^ 32) (ht : 4 * SlowCap.jumpsCount f d < 2 ^ 64)
    (h0 : 0 < SlowCap.jumpsCount f d) (null : Slow) : ∃ rest, Slow.load null (SlowCap.compile f d).save = some ((SlowCap.compile f d).base, rest) ∧ rest ≠ [] := by
  refine ⟨_, by rw [SlowCap.save_compile, Slow.load_save (SlowCap.storable h hs ht)], fun he => ?_⟩
  have := congrArg List.length he
  rw [List.length_append, Slow.length_flatMap_le, SlowCap.length_actions, List.length_nil] at this
  omega

/-- A surrounded automaton may begin with the begin mark. -/
theorem surround_begins {o : Options} {e : Encoding} {s : List Nat} {k : Nat} {t : Alt} (h : Searches o e s k t f f.surround) :
    ∃ x xs, (slowCompile f.surround).nextStates (slowCompile f.surround).start BeginMark = some (x :: xs) := by
  have hready := h.ready
  obtain ⟨⟨h1, -, -⟩, -, -⟩ := h.whole
  have hini : f.surround.initial = f.size := by unfold Fsm.surround; rw [Fsm.appendAnything_initial, Fsm.prependAnything_initial]
  have hA := surround_around h1.wf
  clear h
  revert hready hini hA
  generalize f.surround = g
  intro hready hini hA
  exact SlowCap.begins hA (SlowCap.edge_dst hready.raw) hready.wf hready.small hready.outs hini (by decide)

/-- DEFECT: `Mmap` clears `need_actions`, so a scanner can be mapped only once: mapped again, it has no actions, and then it cannot be run at all (a null pointer
is read). For every surrounded pattern. -/
theorem C61_second_mmap_breaks {o : Options} {e : Encoding} {s : List Nat} {k : Nat} {t : Alt} (h : Searches o e s k t f f.surround)
    (ht : 4 * SlowCap.jumpsCount f.surround 0 < 2 ^ 64) (hn : self.needActions = true) {mem : Mem} {ptr size : Nat} (ha : ptr % 8 = 0) (hsp : ptr + 8 * size < 2 ^ 64)
    (hm : memBytes mem ptr (SlowCap.compile f.surround).save.length = (SlowCap.compile f.surround).save) (hsz : (SlowCap.compile f.surround).save.length ≤ size) :
    ∃ s₁ p₁ s₂ p₂, SlowCap.mmap self mem ptr size = .ok s₁ p₁ ∧ SlowCap.mmap s₁ mem ptr size = .ok s₂ p₂ ∧
      (∀ w, s₁.run w = (SlowCap.compile f.surround).run w) ∧ ∀ w, s₂.run w = none := by
  have hready := h.ready
  obtain ⟨s₁, e1, e2, -⟩ := C61_mmap_saved (f := f.surround) (d := 0) hready.wf hready.small ht hn ha hsp hm hsz
  have hm1 := SlowCap.mmap_save (f := f.surround) (d := 0) hready.wf hready.small ht self ha hsp hm hsz
  rw [e1] at hm1
  injection hm1 with hs1 _
  have hm2 := SlowCap.mmap_save (f := f.surround) (d := 0) hready.wf hready.small ht s₁ ha hsp hm hsz
  have hn1 : s₁.needActions = false := by rw [hs1]; rfl
  refine ⟨s₁, _, _, _, e1, hm2, e2, ?_⟩
  rw [hn1]
  obtain ⟨x, xs, hx⟩ := surround_begins h
  exact SlowCap.mapped_run_none f.surround 0 hx

/-- DEFECT: loading an empty scanner clears `need_actions` too: what is loaded into the same scanner afterwards has no actions and cannot be run. -/
theorem C61_load_after_empty_breaks (h : (f.withDistance d).WF) (hs : (f.withDistance d).size ≤ 2 ^ 32) (ht : 4 * SlowCap.jumpsCount f d < 2 ^ 64) :
    ∃ s₁ s₂ rest, SlowCap.load SlowCap.default SlowCap.default.save = some (s₁, []) ∧ SlowCap.load s₁ (SlowCap.compile f d).save = some (s₂, rest) ∧
      ∀ w, s₂.run w = none := by
  obtain ⟨n1, n2, n3⟩ := SlowCap.null_small
  have e1 := Slow.load_save_empty (null := Slow.null) (s := Slow.null.aliased) n1 n2 n3 rfl []
  have es : SlowCap.default.save = Slow.null.aliased.save ++ [] := by
    unfold SlowCap.save
    rw [if_pos (.inl rfl)]
    rfl
  refine ⟨⟨Slow.null.aliased, false, [], none⟩, ⟨(SlowCap.compile f d).base, false, [], none⟩,
    (SlowCap.compile f d).actionsVec.flatten.flatMap (le 4) ++ alignSave (4 * SlowCap.jumpsCount f d), ?_, ?_, fun w => SlowCap.run_none ?_ w⟩
  · unfold SlowCap.load
    rw [es, e1, Option.bind_some]
    exact if_pos rfl
  · unfold SlowCap.load
    rw [SlowCap.save_compile, Slow.load_save (SlowCap.storable h hs ht), Option.bind_some]
    dsimp only
    rw [if_neg (by intro h; cases h), if_neg (by intro h; cases h)]
  · exact SlowCap.nextStates_without (v := (SlowCap.compile f d).base.vec) rfl rfl _ _

/-- DEFECT: a default-constructed scanner cannot be run: even `Initialize` reads outside of a vector. -/
theorem C61_default_cannot_run (w : List Nat) : SlowCap.default.run w = none :=
  SlowCap.run_none (SlowCap.nextStates_without (s := SlowCap.default) (v := Slow.null.vec) rfl rfl _ _) w

/-- DEFECT: what a mapped scanner saves cannot be loaded (the code has only an assertion against it). -/
theorem C61_mapped_save_unloadable (h : (f.withDistance d).WF) (hs : (f.withDistance d).size ≤ 2 ^ 32) (ht : 4 * SlowCap.jumpsCount f d < 2 ^ 64)
    {mem : Mem} {ptr size : Nat} (ha : ptr % 8 = 0) (hsp : ptr + 8 * size < 2 ^ 64)
    (hm : memBytes mem ptr (SlowCap.compile f d).save.length = (SlowCap.compile f d).save) (hsz : (SlowCap.compile f d).save.length ≤ size) :
    ∃ s' p, SlowCap.mmap self mem ptr size = .ok s' p ∧ ∀ other, SlowCap.load other s'.save = none := by
  refine ⟨_, _, SlowCap.mmap_save h hs ht self ha hsp hm hsz, fun other => ?_⟩
  have e : (SlowCap.mapped f d self.needActions).save = (Slow.mapped (SlowCap.compile f d).base).save := by
    unfold SlowCap.save
    rw [if_pos (.inr rfl), List.append_nil]
    rfl
  unfold SlowCap.load
  rw [e, Slow.load_mapped (SlowCap.storable h hs ht) (SlowCap.vec_pos h)]
  rfl

/-! ### The hypotheses are met -/

/-- The scanner of `x(a*)a*`, surrounded, has few transitions; it can be put anywhere in memory. -/
theorem C61_case (lz : Bool) : ∃ f, Searches noOptions .latin1 (twoText lz) 1 twoTree f f.surround ∧ (f.surround.withDistance 0).WF ∧
    (f.surround.withDistance 0).size ≤ 2 ^ 32 ∧ 4 * SlowCap.jumpsCount f.surround 0 < 2 ^ 64 ∧ SlowCap.default.needActions = true ∧
    ∀ ptr, ∃ mem : Mem, memBytes mem ptr (SlowCap.compile f.surround).save.length = (SlowCap.compile f.surround).save := by
  obtain ⟨f, hf, hs⟩ := two_search_small lz
  have hr := hf.ready
  have hj : 4 * SlowCap.jumpsCount f.surround 0 < 2 ^ 64 := by
    have h1 : SlowCap.jumpsCount f.surround 0 ≤ f.surround.size * (264 * f.surround.size) := SlowCap.jumpsCount_le (d := 0) hr.wf
    have h2 : f.surround.size * (264 * f.surround.size) ≤ 102 * (264 * 102) := Nat.mul_le_mul hs (Nat.mul_le_mul_left _ hs)
    omega
  exact ⟨f, hf, hr.wf, hr.small, hj, rfl, fun ptr => ⟨Multi.blockMem ptr (SlowCap.compile f.surround).save, SlowCap.memBytes_blockMem _ _⟩⟩

end Props
end Pire
