import Verif.Proofs.Simple

/-!
# SimpleScanner: copies, `Save`, `Load`, `Mmap`
-/

namespace Pire
open Spec Io
open Multi (Reader reader_take reader_ret reader_none reader_loadHeader Reader.bind Reader.aligned Reader.ite memBytes blockMem alignPtr memBytes_split length_memBytes alignPtr_aligned alignPtr_flag)

namespace Simple

variable {s s' : Simple} {T : Tbl}

/-- `s'` is a byte-for-byte copy of the block of `s` at another address. -/
structure Image (s s' : Simple) : Prop where
  states : s'.statesCount = s.statesCount
  initial : s'.initial + s.base = s.initial + s'.base
  bytes : ∀ i < bufSize s.statesCount, s'.mem (s'.base + i) = s.mem (s.base + i)
  empty : s'.empty = false

theorem Image.read (h : Image s s') {i : Nat} (hi : i < rowSize * s.statesCount) :
    Scn.readLE s'.mem (word s'.base i) 8 = Scn.readLE s.mem (word s.base i) 8 := by
  unfold word
  apply readLE_shift_base
  intro j hj
  rw [Nat.add_assoc, Nat.add_assoc]
  exact h.bytes _ (by unfold bufSize; omega)

theorem Image.repr (h : Image s s') (hT : Repr s T) (ha : s'.base % 8 = 0) (hsp : s'.base + bufSize s'.statesCount ≤ 2 ^ 64) : Repr s' T := by
  have hM : rowSize = 265 := rfl
  refine ⟨hT.wf, ha, hsp, h.states.trans hT.states, ?_, ?_, ?_⟩
  · have := h.initial
    rw [hT.initial] at this
    unfold indexToState word at this ⊢
    omega
  · intro q hq c hc
    have hr := row_lt hq
    have := hc.1
    rw [h.read (by rw [hT.states, hM]; omega)]
    exact hT.jump q hq c hc
  · intro q hq
    have hr := row_lt hq
    rw [h.read (by rw [hT.states, hM]; omega)]
    exact hT.tag q hq

theorem Repr.initial_bounds (h : Repr s T) : s.base ≤ s.initial ∧ s.initial - s.base < bufSize s.statesCount := by
  have hr := row_lt h.wf.q0_lt
  have hM : rowSize = 265 := rfl
  rw [h.initial, h.states]
  unfold indexToState word bufSize
  rw [hM]
  omega

theorem withBlock_initial (n i b : Nat) (m : Mem) : (withBlock n i b m).initial = i := rfl
theorem withBlock_states (n i b : Nat) (m : Mem) : (withBlock n i b m).statesCount = n := rfl
theorem withBlock_base (n i b : Nat) (m : Mem) : (withBlock n i b m).base = b := rfl
theorem withBlock_mem (n i b : Nat) (m : Mem) : (withBlock n i b m).mem = m := rfl
theorem withBlock_empty (n i b : Nat) (m : Mem) : (withBlock n i b m).empty = false := rfl

theorem copy_image (hT : Repr s T) {base : Nat} (hsp : base + bufSize s.statesCount ≤ 2 ^ 64) : Image s (copyCtor true base s) := by
  obtain ⟨h1, h2⟩ := hT.initial_bounds
  have h3 := hT.space
  unfold copyCtor
  rw [if_pos rfl]
  refine ⟨withBlock_states _ _ _ _, ?_, ?_, withBlock_empty _ _ _ _⟩
  · rw [withBlock_initial, withBlock_base]
    generalize bufSize s.statesCount = B at *
    omega
  · intro i hi
    rw [withBlock_mem, withBlock_base]
    beta_reduce
    rw [if_pos ⟨by omega, by omega⟩, Nat.add_sub_cancel_left]

/-! ### Save, Load -/

theorem tail_buf (n : Nat) : tail (bufSize n) = 0 := by
  unfold tail Scn.alignUp bufSize
  omega

theorem header_ok : Header.ofBytes (Header.mk' 2 localsLen).bytes = Header.mk' 2 localsLen := by
  apply header_roundtrip <;> simp [Header.mk', localsLen]

/-- The bytes of the block. -/
def blockBytes (s : Simple) : Bytes := (List.range (bufSize s.statesCount)).map (fun i => s.mem (s.base + i))

theorem length_blockBytes (s : Simple) : s.blockBytes.length = bufSize s.statesCount := by simp [blockBytes]

/-- The stored offset of the initial state. -/
def savedInitial (s : Simple) : Nat := (s.initial + 2 ^ 64 - s.base) % 2 ^ 64

theorem savedInitial_lt (s : Simple) : s.savedInitial < 2 ^ 64 := Nat.mod_lt _ (by omega)

theorem Repr.savedInitial_eq (h : Repr s T) : s.savedInitial = s.initial - s.base := by
  obtain ⟨h1, h2⟩ := h.initial_bounds
  have h3 := h.space
  unfold savedInitial
  generalize bufSize s.statesCount = B at *
  omega

theorem save_assoc (s : Simple) (rest : Bytes) : s.save ++ rest =
    (Header.mk' 2 localsLen).bytes ++ alignSave headerLen ++
      ((le 8 s.statesCount ++ le 8 s.savedInitial) ++ (alignSave localsLen ++ (le 1 (if s.empty then 1 else 0) ++ (alignSave 1 ++
        ((if s.empty then [] else s.blockBytes ++ alignSave (bufSize s.statesCount)) ++ rest))))) := by
  unfold save blockBytes savedInitial
  simp only [List.append_assoc]

theorem load_save_stage {null : Simple} {base : Nat} {n i : Nat} (hn : n < 2 ^ 64) (hi : i < 2 ^ 64) (e : Bool) (b : Bytes) :
    load null base ((Header.mk' 2 localsLen).bytes ++ alignSave headerLen ++
      ((le 8 n ++ le 8 i) ++ (alignSave localsLen ++ (le 1 (if e then 1 else 0) ++ (alignSave 1 ++ b))))) =
    if e then some (null, b) else
      (take (bufSize n % 2 ^ 64) b).bind fun y => (alignLoad (bufSize n % 2 ^ 64) y.2).bind fun b =>
        some (placeAt n i base (blockMem base y.1), b) := by
  unfold load
  rw [loadHeader_append header_ok (mk'_valid _ _), Option.bind_some, take_append (n := localsLen) (by simp [localsLen]),
    Option.bind_some, alignLoad_append (length_alignSave _), Option.bind_some]
  simp only
  rw [take_append (length_le _ _), Option.bind_some, alignLoad_append (length_alignSave _), Option.bind_some]
  have e1 : num ((le 8 n ++ le 8 i).take 8) = n := by
    rw [List.take_left' (length_le _ _), num_le8 _ hn]
  have e2 : num (((le 8 n ++ le 8 i).drop 8).take 8) = i := by
    rw [List.drop_left' (length_le _ _), List.take_of_length_le (by simp), num_le8 _ hi]
  rw [e1, e2]
  cases e
  · refine (if_neg (show ¬ num (le 1 0) ≠ 0 by decide)).trans ?_
    rw [if_neg (by decide)]
  · exact (if_pos (show num (le 1 1) ≠ 0 by decide)).trans (if_pos (by decide)).symm

theorem Repr.bufSize_lt (h : Repr s T) (hb : 0 < s.base) : bufSize s.statesCount < 2 ^ 64 := by have := h.space; omega

theorem Repr.states_lt (h : Repr s T) : s.statesCount < 2 ^ 64 := by
  have := h.space
  have hM : rowSize = 265 := rfl
  unfold bufSize at this
  rw [hM] at this
  omega

theorem placed_image (hT : Repr s T) {base : Nat} {mem : Mem} (hsp : base + bufSize s.statesCount ≤ 2 ^ 64)
    (hm : ∀ i < bufSize s.statesCount, mem (base + i) = s.mem (s.base + i)) :
    Image s (placeAt s.statesCount s.savedInitial base mem) := by
  obtain ⟨h1, h2⟩ := hT.initial_bounds
  unfold placeAt
  refine ⟨withBlock_states _ _ _ _, ?_, by rw [withBlock_mem, withBlock_base]; exact hm, withBlock_empty _ _ _ _⟩
  rw [withBlock_initial, withBlock_base]
  rw [hT.savedInitial_eq]
  generalize bufSize s.statesCount = B at *
  omega

theorem load_save {null : Simple} {base : Nat} (hT : Repr s T) (he : s.empty = false) (hb : 0 < s.base)
    (hsp : base + bufSize s.statesCount ≤ 2 ^ 64) (rest : Bytes) :
    ∃ s', load null base (s.save ++ rest) = some (s', rest) ∧ Image s s' ∧ s'.base = base := by
  refine ⟨_, ?_, placed_image hT (mem := blockMem base s.blockBytes) hsp ?_, withBlock_base _ _ _ _⟩
  · rw [save_assoc, load_save_stage hT.states_lt s.savedInitial_lt, he, if_neg (by decide), if_neg (by decide),
      Nat.mod_eq_of_lt (hT.bufSize_lt hb), List.append_assoc, take_append s.length_blockBytes, Option.bind_some,
      alignLoad_append (length_alignSave _), Option.bind_some]
  · intro i hi
    unfold blockMem blockBytes
    rw [if_pos (by omega), Nat.add_sub_cancel_left, List.getD_eq_getElem?_getD, List.getElem?_map, List.getElem?_range hi]
    rfl

theorem load_save_empty {null : Simple} {base : Nat} (hn : s.statesCount < 2 ^ 64) (he : s.empty = true) (rest : Bytes) :
    load null base (s.save ++ rest) = some (null, rest) := by
  rw [save_assoc, load_save_stage hn s.savedInitial_lt, he, if_pos rfl, if_pos rfl, List.nil_append]

theorem reader_load (null : Simple) (base : Nat) : Reader (load null base) := by
  unfold load
  refine Reader.bind (reader_loadHeader 2 localsLen) fun _ => ?_
  refine Reader.bind (reader_take localsLen) fun x => ?_
  show Reader fun b => (alignLoad localsLen b).bind fun b => (take 1 b).bind fun e => (alignLoad 1 e.2).bind fun b =>
      if num e.1 ≠ 0 then some (null, b)
      else (take (bufSize (num (x.take 8)) % 2 ^ 64) b).bind fun y => (alignLoad (bufSize (num (x.take 8)) % 2 ^ 64) y.2).bind fun b =>
          some (placeAt (num (x.take 8)) (num ((x.drop 8).take 8)) base (blockMem base y.1), b)
  refine Reader.aligned (Reader.bind (reader_take 1) fun e => ?_)
  show Reader fun b => (alignLoad 1 b).bind fun b =>
      if num e ≠ 0 then some (null, b)
      else (take (bufSize (num (x.take 8)) % 2 ^ 64) b).bind fun y => (alignLoad (bufSize (num (x.take 8)) % 2 ^ 64) y.2).bind fun b =>
          some (placeAt (num (x.take 8)) (num ((x.drop 8).take 8)) base (blockMem base y.1), b)
  refine Reader.aligned (Reader.ite (reader_ret _) (Reader.bind (reader_take _) fun blk => ?_))
  exact Reader.aligned (reader_ret (placeAt (num (x.take 8)) (num ((x.drop 8).take 8)) base (blockMem base blk)))

/-! ### Mmap -/

/-- `Mmap`, with the pointer arithmetic carried out. -/
theorem mmap_eq (self : Simple) (mem : Mem) {ptr size : Nat} (ha : ptr % 8 = 0) (hs : ptr + 8 * size < 2 ^ 64) :
    mmap self mem ptr size =
      if size < 40 then .throws
      else if (Header.ofBytes (memBytes mem ptr 24)).valid 2 localsLen = false then .throws
      else if size = 40 then .overread
      else if size = 41 then .throws
      else if mem (ptr + 40) ≠ 0 then .ok self (ptr + 48)
      else if size - 41 < bufSize (num (memBytes mem (ptr + 24) 8)) % 2 ^ 64 then .throws
      else .ok (placeAt (num (memBytes mem (ptr + 24) 8)) (num (memBytes mem (ptr + 32) 8)) (ptr + 48) mem)
        (ptr + 48 + bufSize (num (memBytes mem (ptr + 24) 8)) % 2 ^ 64) := by
  unfold mmap headerLen
  rw [if_neg (by omega), alignPtr_aligned (by omega)]
  by_cases h1 : size < 24
  · rw [if_pos h1, if_pos (by omega)]
  rw [if_neg h1]
  simp only
  by_cases hv : (Header.ofBytes (memBytes mem ptr 24)).valid 2 localsLen = false
  · rw [hv, if_pos (by decide)]
    split
    · rfl
    · rw [if_pos rfl]
  rw [if_neg (by simpa using hv)]
  by_cases h2 : size < 40
  · rw [if_pos (show size - 24 < localsLen by unfold localsLen; omega), if_pos h2]
  rw [if_neg (show ¬ size - 24 < localsLen by unfold localsLen; omega), if_neg h2, if_neg hv]
  unfold localsLen
  rw [alignPtr_aligned (by omega)]
  simp only
  generalize num (memBytes mem (ptr + 24) 8) = n
  by_cases h5 : size = 40
  · rw [if_pos (by omega), if_pos h5]
  rw [if_neg (by omega), if_neg h5, alignPtr_flag (by omega) (by omega)]
  by_cases h6 : size = 41
  · rw [if_pos (by omega), if_pos h6]
  rw [if_neg (by omega), if_neg h6]
  simp only
  have e1 : ptr + 24 + 16 = ptr + 40 := by omega
  have e2 : ptr + 24 + 16 + 8 = ptr + 48 := by omega
  have e3 : size - 24 - 16 - 1 = size - 41 := by omega
  have e4 : ptr + 24 + 8 = ptr + 32 := by omega
  rw [e3, e2, e1, e4]
  by_cases h7 : mem (ptr + 40) ≠ 0
  · rw [if_pos h7, if_pos h7]
  rw [if_neg h7, if_neg h7]
  have hb : bufSize n % 8 = 0 := by unfold bufSize; omega
  by_cases h8 : size - 41 < bufSize n % 2 ^ 64
  · rw [if_pos h8, if_pos h8]
  rw [if_neg h8, if_neg h8, alignPtr_aligned (by omega)]

theorem mmap_misaligned (self : Simple) (mem : Mem) {ptr size : Nat} (ha : ptr % 8 ≠ 0) : mmap self mem ptr size = .throws := by
  unfold mmap; rw [if_pos ha]

theorem length_save (s : Simple) : s.save.length = 48 + if s.empty then 0 else bufSize s.statesCount := by
  have := congrArg List.length (save_assoc s [])
  rw [List.append_nil] at this
  rw [this]
  simp only [List.length_append, length_header, length_alignSave, length_le, show tail headerLen = 0 from rfl,
    show tail localsLen = 0 from rfl, show tail 1 = 7 from rfl]
  cases s.empty
  · rw [if_neg (by decide), if_neg (by decide), List.length_append, length_blockBytes, length_alignSave, tail_buf]
    simp; omega
  · rw [if_pos rfl, if_pos rfl]; rfl

/-- What is in memory after `Save` wrote there. -/
theorem saved_in_memory {mem : Mem} {ptr : Nat} (hn : s.statesCount < 2 ^ 64) (h : memBytes mem ptr s.save.length = s.save) :
    (Header.ofBytes (memBytes mem ptr 24)).valid 2 localsLen = true ∧
    num (memBytes mem (ptr + 24) 8) = s.statesCount ∧ num (memBytes mem (ptr + 32) 8) = s.savedInitial ∧
    mem (ptr + 40) = (if s.empty then 1 else 0) ∧
    (s.empty = false → memBytes mem (ptr + 48) (bufSize s.statesCount) = s.blockBytes) := by
  have hn' := List.append_nil s.save
  rw [save_assoc] at hn'
  generalize hL : s.save.length = L at h
  rw [← hn'] at h
  rw [List.append_assoc] at h
  have h1 := memBytes_split h
  rw [length_header] at h1
  obtain ⟨a1, h2⟩ := h1
  have h3 := (memBytes_split h2).2
  rw [length_alignSave, show tail headerLen = 0 from rfl, Nat.add_zero, List.append_assoc] at h3
  have h4 := memBytes_split h3
  rw [length_le] at h4
  obtain ⟨a2, h5⟩ := h4
  have h5' := memBytes_split h5
  rw [length_le] at h5'
  obtain ⟨a2', h5⟩ := h5'
  have h6 := (memBytes_split h5).2
  rw [length_alignSave, show tail localsLen = 0 from rfl, Nat.add_zero] at h6
  have h7 := memBytes_split h6
  rw [length_le] at h7
  obtain ⟨a3, h8⟩ := h7
  have h9 := (memBytes_split h8).2
  rw [length_alignSave, show tail 1 = 7 from rfl] at h9
  have e0 : ptr + 24 + 8 = ptr + 32 := by omega
  have e1 : ptr + 24 + 8 + 8 = ptr + 40 := by omega
  have e2 : ptr + 24 + 8 + 8 + 1 + 7 = ptr + 48 := by omega
  rw [e1] at a3
  rw [e2] at h9
  rw [e0] at a2'
  refine ⟨by rw [a1, header_ok]; exact mk'_valid _ _, by rw [a2, num_le8 _ hn], by rw [a2', num_le8 _ s.savedInitial_lt], ?_, ?_⟩
  · have := congrArg List.head? a3
    cases he : s.empty <;> rw [he] at this <;> simpa [memBytes, le, byteFin] using this
  · intro he
    rw [he, if_neg (by decide), List.append_nil] at h9
    have := (memBytes_split h9).1
    rw [length_blockBytes] at this
    exact this

theorem _root_.Pire.memBytes_blockMem (base : Nat) (b : Bytes) : memBytes (blockMem base b) base b.length = b := by
  unfold memBytes blockMem
  apply List.ext_getElem
  · simp
  · intro i h1 h2
    rw [List.getElem_map, List.getElem_range, if_pos (by omega), Nat.add_sub_cancel_left, List.getD_eq_getElem?_getD,
      List.getElem?_eq_getElem h2, Option.getD_some]

theorem mapped_bytes {mem : Mem} {base : Nat} (hb : memBytes mem base (bufSize s.statesCount) = s.blockBytes) :
    ∀ i < bufSize s.statesCount, mem (base + i) = s.mem (s.base + i) := by
  intro i hi
  have := congrArg (fun l => l[i]?) hb
  unfold memBytes blockBytes at this
  simp only [List.getElem?_map, List.getElem?_range hi, Option.map_some, Option.some.injEq] at this
  exact this

end Simple
end Pire
