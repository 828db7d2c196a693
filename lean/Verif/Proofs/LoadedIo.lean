import Verif.Proofs.SimpleIo
import Verif.Proofs.LoadedGlue

/-!
# Loaded scanners: `Save`, `Load`, `Mmap`
-/

namespace Pire
open Spec Io
open Multi (Reader reader_take reader_ret reader_none reader_loadHeader Reader.bind Reader.aligned Reader.ite memBytes blockMem alignPtr memBytes_split length_memBytes alignPtr_aligned)

namespace Loaded

variable {s s' : Loaded} {T : ATbl}

/-- `s'` has the same arrays at other addresses. -/
structure Image (s s' : Loaded) : Prop where
  states : s'.statesCount = s.statesCount
  lettersCount : s'.lettersCount = s.lettersCount
  regexps : s'.regexpsCount = s.regexpsCount
  initial : s'.initial + s.jumps = s.initial + s'.jumps
  letters : ∀ i < MaxChar, s'.mem (s'.letters + i) = s.mem (s.letters + i)
  jumps : ∀ i < 8 * (s.statesCount * s.lettersCount), s'.mem (s'.jumps + i) = s.mem (s.jumps + i)
  tags : ∀ i < s.statesCount, s'.mem (s'.tags + i) = s.mem (s.tags + i)

theorem Repr.nl (h : Repr s T) : s.statesCount * s.lettersCount ≤ 2 ^ 28 ∧ 0 < s.statesCount * s.lettersCount ∧ s.statesCount ≤ 2 ^ 28 ∧
    s.statesCount * s.lettersCount % 2 ^ 32 = s.statesCount * s.lettersCount := by
  have h1 := h.limit
  have h2 := h.pos
  have h3 := h.q0
  have e : T.n * (s.lettersCount * 8) = 8 * (T.n * s.lettersCount) := by ring
  have h4 : T.n * 1 ≤ T.n * s.lettersCount := Nat.mul_le_mul_left _ h2
  rw [h.states]
  omega

theorem Image.repr (hi : Image s s') (h : Repr s T) (ha : s'.jumps % 8 = 0)
    (hs : s'.jumps + 8 * (s.statesCount * s.lettersCount) ≤ 2 ^ 64) : Repr s' T := by
  refine relocate_repr h ha (by rw [← h.states]; exact hs) hi.states hi.lettersCount ?_ ?_ ?_ ?_
  · have h1 := hi.initial
    rw [h.initial] at h1
    unfold indexToState jumpAt at h1 ⊢
    rw [hi.lettersCount]
    omega
  · intro c hc
    unfold letter
    refine readLE_shift_base fun j hj => ?_
    have := hc.1
    have : j = 0 := by omega
    subst this
    exact hi.letters c (by omega)
  · intro d k hk
    refine readLE_shift_base fun j hj => ?_
    rw [Nat.add_assoc, Nat.add_assoc]
    exact hi.jumps _ (by rw [h.states]; omega)
  · intro q hq
    unfold tag
    refine readLE_shift_base fun j hj => ?_
    have : j = 0 := by omega
    subst this
    exact hi.tags q (by rw [h.states]; exact hq)

/-! ### Save, Load -/

theorem header_ok {type : Nat} (h : type = 4 ∨ type = 5) : Header.ofBytes (Header.mk' type localsLen).bytes = Header.mk' type localsLen := by
  rcases h with rfl | rfl <;> apply header_roundtrip <;> simp [Header.mk', localsLen]

theorem header_valid {type : Nat} (h : type = 4 ∨ type = 5) : (Header.mk' type localsLen).valid 4 localsLen = true := by
  rcases h with rfl | rfl <;> decide

/-- The stored offset of the initial state. -/
def savedInitial (s : Loaded) : Nat := (s.initial + 2 ^ 64 - s.jumps) % 2 ^ 64

theorem savedInitial_lt (s : Loaded) : s.savedInitial < 2 ^ 64 := Nat.mod_lt _ (by omega)

theorem Repr.initial_bounds (h : Repr s T) : s.jumps ≤ s.initial ∧ s.initial < s.jumps + 8 * (s.statesCount * s.lettersCount) := by
  have f1 := indexToState_fit (l := s.lettersCount) h.q0
  have := h.pos
  rw [h.initial, h.states]
  unfold indexToState jumpAt
  omega

theorem Repr.space' (h : Repr s T) : s.jumps + 8 * (s.statesCount * s.lettersCount) ≤ 2 ^ 64 := by
  have := h.space
  have e : T.n * (s.lettersCount * 8) = 8 * (T.n * s.lettersCount) := by ring
  rw [h.states]
  omega

theorem Repr.savedInitial_eq (h : Repr s T) : s.savedInitial = s.initial - s.jumps := by
  have := h.initial_bounds
  have := h.space'
  unfold savedInitial
  omega

@[simp] theorem length_localsBytes (s : Loaded) (i pad : Nat) : (s.localsBytes i pad).length = 24 := by simp [localsBytes]

theorem localsBytes_read (s : Loaded) {i : Nat} (pad : Nat) (hn : s.statesCount < 2 ^ 32) (hl : s.lettersCount < 2 ^ 32) (hr : s.regexpsCount < 2 ^ 32)
    (hi : i < 2 ^ 64) : num ((s.localsBytes i pad).take 4) = s.statesCount ∧ num (((s.localsBytes i pad).drop 4).take 4) = s.lettersCount ∧
      num (((s.localsBytes i pad).drop 8).take 4) = s.regexpsCount ∧ num (((s.localsBytes i pad).drop 16).take 8) = i := by
  unfold localsBytes
  refine ⟨?_, ?_, ?_, ?_⟩
  · rw [List.append_assoc, List.append_assoc, List.append_assoc, List.take_left' (length_le _ _), num_le4 _ hn]
  · rw [List.append_assoc, List.append_assoc, List.append_assoc, List.drop_left' (length_le _ _), List.take_left' (length_le _ _), num_le4 _ hl]
  · rw [List.append_assoc, List.append_assoc, List.drop_left' (by simp), List.take_left' (length_le _ _), num_le4 _ hr]
  · rw [List.drop_left' (by simp), List.take_of_length_le (by simp), num_le8 _ hi]

theorem save_assoc (type pad : Nat) (s : Loaded) (rest : Bytes) : s.save type pad ++ rest =
    (Header.mk' type localsLen).bytes ++ alignSave headerLen ++
      (s.localsBytes s.savedInitial pad ++ (alignSave localsLen ++ (memBytes s.mem s.letters MaxChar ++ (alignSave MaxChar ++
        (memBytes s.mem s.jumps (8 * (s.statesCount * s.lettersCount % 2 ^ 32)) ++ (alignSave (8 * (s.statesCount * s.lettersCount % 2 ^ 32)) ++
          (memBytes s.mem s.tags s.statesCount ++ (alignSave s.statesCount ++ rest)))))))) := by
  unfold save saveArray savedInitial
  simp only [List.append_assoc]

theorem loadArray_append {n : Nat} {x p b : Bytes} (h : x.length = n) (hp : p.length = tail n) : loadArray n (x ++ (p ++ b)) = some (x, b) := by
  unfold loadArray
  rw [take_append h, Option.bind_some, alignLoad_append hp, Option.bind_some]

theorem reader_loadArray (n : Nat) : Reader (loadArray n) := by
  unfold loadArray
  exact Reader.bind (reader_take n) fun x => Reader.aligned (reader_ret x)

theorem load_save {base type pad : Nat} (ht : type = 4 ∨ type = 5) (h : Repr s T) (hr : s.regexpsCount < 2 ^ 32) (rest : Bytes) :
    load base (s.save type pad ++ rest) = some ((markup s.statesCount s.lettersCount s.regexpsCount ((s.savedInitial + base + MaxChar) % 2 ^ 64) base
      (blockMem base (memBytes s.mem s.letters MaxChar ++ memBytes s.mem s.jumps (8 * (s.statesCount * s.lettersCount)) ++
        memBytes s.mem s.tags s.statesCount)), type), rest) := by
  obtain ⟨k1, k2, k3, k4⟩ := h.nl
  have hl := h.small
  rw [save_assoc, k4]
  unfold load
  rw [loadHeader_append (header_ok ht) (header_valid ht), Option.bind_some, take_append (n := localsLen) (by simp [localsLen]), Option.bind_some,
    alignLoad_append (length_alignSave _), Option.bind_some]
  obtain ⟨e1, e2, e3, e4⟩ := localsBytes_read s (i := s.savedInitial) pad (by omega) (by omega) hr s.savedInitial_lt
  simp only [e1, e2, e3, e4]
  rw [loadArray_append (length_memBytes ..) (length_alignSave _), Option.bind_some, k4]
  simp only
  rw [loadArray_append (length_memBytes ..) (length_alignSave _), Option.bind_some]
  simp only
  rw [if_neg (by simp [Header.mk']), Option.bind_some, loadArray_append (length_memBytes ..) (length_alignSave _), Option.bind_some]
  rfl

theorem memBytes_get {mem : Mem} {p n i : Nat} (h : i < n) : (memBytes mem p n)[i]? = some (mem (p + i)) := by
  unfold memBytes
  rw [List.getElem?_map, List.getElem?_range h]
  rfl

theorem loaded_image {base : Nat} (h : Repr s T) (hs : base + bufSize s.statesCount s.lettersCount ≤ 2 ^ 64) :
    Image s (markup s.statesCount s.lettersCount s.regexpsCount ((s.savedInitial + base + MaxChar) % 2 ^ 64) base
      (blockMem base (memBytes s.mem s.letters MaxChar ++ memBytes s.mem s.jumps (8 * (s.statesCount * s.lettersCount)) ++
        memBytes s.mem s.tags s.statesCount))) := by
  obtain ⟨k1, k2, k3, k4⟩ := h.nl
  have hb : bufSize s.statesCount s.lettersCount = 264 + 8 * (s.statesCount * s.lettersCount) + s.statesCount := by
    unfold bufSize MaxChar; ring
  have hM : MaxChar = 264 := rfl
  have i1 := h.initial_bounds
  have i2 := h.savedInitial_eq
  obtain ⟨f1, f2, f3, f4, f5, f6, f7, f8, f9⟩ := markup_fields s.statesCount s.lettersCount s.regexpsCount
    ((s.savedInitial + base + MaxChar) % 2 ^ 64) base (blockMem base (memBytes s.mem s.letters MaxChar ++
      memBytes s.mem s.jumps (8 * (s.statesCount * s.lettersCount)) ++ memBytes s.mem s.tags s.statesCount))
  refine ⟨f1, f2, f3, ?_, ?_, ?_, ?_⟩
  · rw [f4, f6]
    omega
  · intro i hi
    rw [f8, f5]
    unfold blockMem
    rw [if_pos (by omega), Nat.add_sub_cancel_left, List.getD_eq_getElem?_getD, List.append_assoc, List.getElem?_append_left (by simpa using hi), memBytes_get hi]
    rfl
  · intro i hi
    rw [f8, f6]
    unfold blockMem
    rw [if_pos (by omega), show base + MaxChar + i - base = MaxChar + i by omega, List.getD_eq_getElem?_getD,
      List.getElem?_append_left (by simp; omega), List.getElem?_append_right (by simp), length_memBytes, Nat.add_sub_cancel_left, memBytes_get hi]
    rfl
  · intro i hi
    rw [f8, f7, k4]
    unfold blockMem
    rw [if_pos (by omega), show base + MaxChar + 8 * (s.statesCount * s.lettersCount) + i - base = MaxChar + 8 * (s.statesCount * s.lettersCount) + i by omega,
      List.getD_eq_getElem?_getD, List.getElem?_append_right (by simp), List.length_append, length_memBytes, length_memBytes, Nat.add_sub_cancel_left, memBytes_get hi]
    rfl

/-- The last part of `load`: the tags, after the obsolete array of actions. -/
def loadTags (base n l r i version type : Nat) (ls js : Bytes) (b : Bytes) : Option ((Loaded × Nat) × Bytes) :=
  (if version = 6 then (loadArray (4 * (n * l % 2 ^ 32)) b).bind fun x => some x.2 else some b).bind fun b =>
    (loadArray n b).bind fun ts => some ((markup n l r ((i + base + MaxChar) % 2 ^ 64) base (blockMem base (ls ++ js ++ ts.1)), type), ts.2)

/-- The part of `load` after the locals. -/
def loadRest (base n l r i version type : Nat) (b : Bytes) : Option ((Loaded × Nat) × Bytes) :=
  (loadArray MaxChar b).bind fun ls => (loadArray (8 * (n * l % 2 ^ 32)) ls.2).bind fun js => loadTags base n l r i version type ls.1 js.1 js.2

/-- The part of `load` after the header. -/
def loadBody (base version type : Nat) (x : Bytes) (b : Bytes) : Option ((Loaded × Nat) × Bytes) :=
  (alignLoad localsLen b).bind fun b =>
    loadRest base (num (x.take 4)) (num ((x.drop 4).take 4)) (num ((x.drop 8).take 4)) (num ((x.drop 16).take 8)) version type b

theorem load_eq (base : Nat) (b : Bytes) : load base b =
    (loadHeader 4 localsLen b).bind fun h => (take localsLen h.2).bind fun x => loadBody base h.1.version h.1.type x.1 x.2 := rfl

theorem reader_loadTags (base n l r i version type : Nat) (ls js : Bytes) : Reader (loadTags base n l r i version type ls js) := by
  have k2 : Reader fun b => (loadArray n b).bind fun ts =>
      some ((markup n l r ((i + base + MaxChar) % 2 ^ 64) base (blockMem base (ls ++ js ++ ts.1)), type), ts.2) :=
    Reader.bind (g := fun ts => some ((markup n l r ((i + base + MaxChar) % 2 ^ 64) base (blockMem base (ls ++ js ++ ts.1)), type), ts.2))
      (reader_loadArray _) fun ts => reader_ret (markup n l r ((i + base + MaxChar) % 2 ^ 64) base (blockMem base (ls ++ js ++ ts)), type)
  unfold loadTags
  by_cases hv : version = 6
  · simp only [hv, if_true, Option.bind_assoc, Option.bind_some]
    exact Reader.bind (g := fun x => (loadArray n x.2).bind fun ts =>
      some ((markup n l r ((i + base + MaxChar) % 2 ^ 64) base (blockMem base (ls ++ js ++ ts.1)), type), ts.2)) (reader_loadArray _) fun _ => k2
  · simp only [hv, if_false, Option.bind_some]
    exact k2

theorem reader_loadRest (base n l r i version type : Nat) : Reader (loadRest base n l r i version type) := by
  unfold loadRest
  refine Reader.bind (g := fun ls => (loadArray (8 * (n * l % 2 ^ 32)) ls.2).bind fun js => loadTags base n l r i version type ls.1 js.1 js.2)
    (reader_loadArray MaxChar) fun ls => ?_
  exact Reader.bind (g := fun js => loadTags base n l r i version type ls js.1 js.2) (reader_loadArray _) fun js => reader_loadTags _ _ _ _ _ _ _ _ _

theorem reader_loadBody (base version type : Nat) (x : Bytes) : Reader (loadBody base version type x) := by
  unfold loadBody
  exact Reader.aligned (reader_loadRest _ _ _ _ _ _ _)

theorem reader_load (base : Nat) : Reader (load base) := by
  rw [funext (load_eq base)]
  refine Reader.bind (g := fun h => (take localsLen h.2).bind fun x => loadBody base h.1.version h.1.type x.1 x.2) (reader_loadHeader 4 localsLen) fun h => ?_
  exact Reader.bind (g := fun x => loadBody base h.version h.type x.1 x.2) (reader_take localsLen) fun x => reader_loadBody _ _ _ _

/-! ### Mmap -/

theorem mapPtr_aligned {n p size : Nat} (hp : p % 8 = 0) (hn : n % 8 = 0) : mapPtr n p size = if size < n then none else some (p, p + n, size - n) := by
  unfold mapPtr
  split
  · rfl
  · rw [alignPtr_aligned (by omega)]; rfl

theorem mapPtr_eq {n p size : Nat} (hp : p % 8 = 0) (hs : p + 8 * size + 16 < 2 ^ 64) :
    mapPtr n p size = if size < n ∨ (n % 8 ≠ 0 ∧ size = n) then none else some (p, Scn.alignUp (p + n) 8, size - n) := by
  unfold mapPtr
  by_cases h1 : size < n
  · rw [if_pos h1, if_pos (.inl h1)]
  rw [if_neg h1]
  by_cases h2 : n % 8 = 0
  · rw [alignPtr_aligned (by omega), if_neg (by omega)]
    have : Scn.alignUp (p + n) 8 = p + n := by unfold Scn.alignUp; omega
    rw [this]; rfl
  · unfold alignPtr
    rw [if_neg (by omega)]
    simp only
    have e : Scn.alignUp (p + n) 8 - (p + n) < 8 ∧ p + n < Scn.alignUp (p + n) 8 := by unfold Scn.alignUp; omega
    by_cases h3 : size = n
    · rw [if_pos (show size < n ∨ (n % 8 ≠ 0 ∧ size = n) from .inr ⟨h2, h3⟩), if_pos (by rw [Nat.mod_eq_of_lt (by omega)]; omega)]; rfl
    · rw [if_neg (show ¬ (size < n ∨ (n % 8 ≠ 0 ∧ size = n)) by omega), if_neg (by rw [Nat.mod_eq_of_lt (by omega)]; omega), Option.map_some]
      have : (size - n + 2 ^ 64 - (Scn.alignUp (p + n) 8 - (p + n)) / 8) % 2 ^ 64 = size - n := by omega
      rw [this]

/-- The number of transitions the bytes at `ptr + 24` announce. -/
def mapCount (mem : Mem) (ptr : Nat) : Nat := num (memBytes mem (ptr + 24) 4) * num (memBytes mem (ptr + 28) 4) % 2 ^ 32

/-- The bytes of the obsolete array of actions. -/
def mapOld (mem : Mem) (ptr : Nat) : Nat := if (Header.ofBytes (memBytes mem ptr 24)).version = 6 then 4 * mapCount mem ptr else 0

/-- The scanner `Mmap` makes. -/
def mapped (mem : Mem) (ptr : Nat) : Loaded :=
  { statesCount := num (memBytes mem (ptr + 24) 4), lettersCount := num (memBytes mem (ptr + 28) 4), regexpsCount := num (memBytes mem (ptr + 32) 4)
    initial := (num (memBytes mem (ptr + 40) 8) + (ptr + 312)) % 2 ^ 64, letters := ptr + 48, jumps := ptr + 312
    tags := Scn.alignUp (ptr + 312 + 8 * mapCount mem ptr + mapOld mem ptr) 8, mem := mem, empty := false }

/-- `Mmap`, with the pointer arithmetic carried out. -/
theorem mmap_eq (mem : Mem) {ptr size : Nat} (ha : ptr % 8 = 0) (hs : ptr + 8 * size + 16 < 2 ^ 64) :
    mmap mem ptr size =
      if size < 24 ∨ (Header.ofBytes (memBytes mem ptr 24)).valid 4 localsLen = false then .throws
      else if size < 312 + 8 * mapCount mem ptr + mapOld mem ptr ∨
        (mapOld mem ptr % 8 ≠ 0 ∧ size = 312 + 8 * mapCount mem ptr + mapOld mem ptr) then .throws
      else if size < 312 + 8 * mapCount mem ptr + mapOld mem ptr + (mapped mem ptr).statesCount ∨
        ((mapped mem ptr).statesCount % 8 ≠ 0 ∧ size = 312 + 8 * mapCount mem ptr + mapOld mem ptr + (mapped mem ptr).statesCount) then .throws
      else .ok (mapped mem ptr) (Header.ofBytes (memBytes mem ptr 24)).type
        (Scn.alignUp ((mapped mem ptr).tags + (mapped mem ptr).statesCount) 8)
        (size - (312 + 8 * mapCount mem ptr + mapOld mem ptr + (mapped mem ptr).statesCount)) := by
  have hh : headerLen = 24 := rfl
  have hl : localsLen = 24 := rfl
  have hM : MaxChar = 264 := rfl
  unfold mmap
  rw [if_neg (by omega), hh, mapPtr_aligned ha (by omega)]
  by_cases h1 : size < 24
  · rw [if_pos h1, if_pos (.inl h1)]
  rw [if_neg h1]
  simp only
  by_cases h2 : (Header.ofBytes (memBytes mem ptr 24)).valid 4 localsLen = false
  · rw [if_pos (show (!(Header.ofBytes (memBytes mem ptr 24)).valid 4 localsLen) = true by rw [h2]; rfl), if_pos (.inr h2)]
  rw [if_neg (show ¬ (!(Header.ofBytes (memBytes mem ptr 24)).valid 4 localsLen) = true by simpa using h2), if_neg (by rintro (h | h); exacts [h1 h, h2 h])]
  rw [hl, mapPtr_aligned (by omega) (by omega)]
  by_cases h3 : size - 24 < 24
  · rw [if_pos h3, if_pos (.inl (by omega))]
  rw [if_neg h3]
  simp only
  rw [hM, mapPtr_aligned (by omega) (by omega)]
  by_cases h4 : size - 24 - 24 < 264
  · rw [if_pos h4, if_pos (.inl (by omega))]
  rw [if_neg h4]
  simp only
  have eq1 : ptr + 24 + 4 = ptr + 28 := by omega
  have eq2 : ptr + 24 + 8 = ptr + 32 := by omega
  have eq3 : ptr + 24 + 16 = ptr + 40 := by omega
  have eq4 : ptr + 24 + 24 + 264 = ptr + 312 := by omega
  have eq5 : ptr + 24 + 24 = ptr + 48 := by omega
  have eq6 : size - 24 - 24 - 264 = size - 312 := by omega
  rw [eq1, eq2, eq3, eq4, eq5, eq6]
  have ek : num (memBytes mem (ptr + 24) 4) * num (memBytes mem (ptr + 28) 4) % 2 ^ 32 = mapCount mem ptr := rfl
  rw [ek]
  generalize hK : mapCount mem ptr = K
  rw [mapPtr_aligned (by omega) (by omega)]
  by_cases h5 : size - 312 < 8 * K
  · rw [if_pos h5, if_pos (.inl (by omega))]
  rw [if_neg h5]
  simp only
  generalize hO : mapOld mem ptr = O
  have key : (if (Header.ofBytes (memBytes mem ptr 24)).version = 6 then (mapPtr (4 * K) (ptr + 312 + 8 * K) (size - 312 - 8 * K)).map (·.2)
      else some (ptr + 312 + 8 * K, size - 312 - 8 * K)) =
      if size < 312 + 8 * K + O ∨ (O % 8 ≠ 0 ∧ size = 312 + 8 * K + O) then none
      else some (Scn.alignUp (ptr + 312 + 8 * K + O) 8, size - (312 + 8 * K + O)) := by
    unfold mapOld at hO
    by_cases hv : (Header.ofBytes (memBytes mem ptr 24)).version = 6
    · rw [if_pos hv] at hO ⊢
      rw [hK] at hO
      rw [hO, mapPtr_eq (by omega) (by omega)]
      by_cases h6 : size < 312 + 8 * K + O ∨ (O % 8 ≠ 0 ∧ size = 312 + 8 * K + O)
      · rw [if_pos h6, if_pos (by omega)]; rfl
      · rw [if_neg h6, if_neg (by omega), Option.map_some, show size - 312 - 8 * K - O = size - (312 + 8 * K + O) by omega]
    · rw [if_neg hv] at hO ⊢
      subst hO
      rw [if_neg (by omega), show Scn.alignUp (ptr + 312 + 8 * K + 0) 8 = ptr + 312 + 8 * K by unfold Scn.alignUp; omega,
        show size - 312 - 8 * K = size - (312 + 8 * K + 0) by omega]
  rw [key]
  by_cases h6 : size < 312 + 8 * K + O ∨ (O % 8 ≠ 0 ∧ size = 312 + 8 * K + O)
  · rw [if_pos h6, if_pos h6]
  rw [if_neg h6, if_neg h6]
  simp only
  have hn : (mapped mem ptr).statesCount = num (memBytes mem (ptr + 24) 4) := rfl
  have ht : (mapped mem ptr).tags = Scn.alignUp (ptr + 312 + 8 * K + O) 8 := by rw [← hK, ← hO]; rfl
  have hup : Scn.alignUp (ptr + 312 + 8 * K + O) 8 % 8 = 0 ∧ Scn.alignUp (ptr + 312 + 8 * K + O) 8 < ptr + 312 + 8 * K + O + 8 := by unfold Scn.alignUp; omega
  rw [mapPtr_eq hup.1 (by omega), hn, ht]
  generalize hN : num (memBytes mem (ptr + 24) 4) = N
  by_cases h7 : size < 312 + 8 * K + O + N ∨ (N % 8 ≠ 0 ∧ size = 312 + 8 * K + O + N)
  · rw [if_pos h7, if_pos (by omega)]
  rw [if_neg h7, if_neg (by omega)]
  simp only
  have hm : mapped mem ptr =
      { statesCount := N, lettersCount := num (memBytes mem (ptr + 28) 4), regexpsCount := num (memBytes mem (ptr + 32) 4)
        initial := (num (memBytes mem (ptr + 40) 8) + (ptr + 312)) % 2 ^ 64, letters := ptr + 48, jumps := ptr + 312
        tags := Scn.alignUp (ptr + 312 + 8 * K + O) 8, mem := mem, empty := false } := by
    unfold mapped
    rw [hK, hO, hN]
  rw [hm, show size - (312 + 8 * K + O) - N = size - (312 + 8 * K + O + N) by omega]

theorem mmap_misaligned (mem : Mem) {ptr size : Nat} (ha : ptr % 8 ≠ 0) : mmap mem ptr size = .throws := by
  unfold mmap; rw [if_pos ha]

theorem tail_mul (k : Nat) : tail (8 * k) = 0 := by unfold tail Scn.alignUp; omega

theorem length_save (type pad : Nat) (s : Loaded) :
    (s.save type pad).length = 312 + 8 * (s.statesCount * s.lettersCount % 2 ^ 32) + (s.statesCount + tail s.statesCount) := by
  have := congrArg List.length (save_assoc type pad s [])
  rw [List.append_nil] at this
  rw [this]
  simp only [List.length_append, length_header, length_alignSave, length_localsBytes, length_memBytes, show tail headerLen = 0 from rfl,
    show tail localsLen = 0 from rfl, show tail MaxChar = 0 from rfl, tail_mul, List.length_nil]
  unfold MaxChar
  omega

theorem memBytes_eq {mem mem' : Mem} {p q n : Nat} (h : memBytes mem p n = memBytes mem' q n) : ∀ i < n, mem (p + i) = mem' (q + i) := by
  intro i hi
  have := congrArg (fun l => l[i]?) h
  rw [memBytes_get hi, memBytes_get hi] at this
  exact Option.some.inj this

/-- What is in memory after `Save` wrote there. -/
theorem saved_in_memory {mem : Mem} {ptr type pad : Nat} (ht : type = 4 ∨ type = 5) (hR : Repr s T) (hr : s.regexpsCount < 2 ^ 32)
    (ha : ptr % 8 = 0) (hsp : ptr + 312 + 8 * (s.statesCount * s.lettersCount) ≤ 2 ^ 64) (h : memBytes mem ptr (s.save type pad).length = s.save type pad) :
    Header.ofBytes (memBytes mem ptr 24) = Header.mk' type localsLen ∧ Image s (mapped mem ptr) ∧ mapOld mem ptr = 0 ∧
      mapCount mem ptr = s.statesCount * s.lettersCount := by
  obtain ⟨k1, k2, k3, k4⟩ := hR.nl
  have hl := hR.small
  have hlen := length_save type pad s
  have hn' := List.append_nil (s.save type pad)
  rw [save_assoc] at hn'
  generalize hL : (s.save type pad).length = L at h
  rw [← hn', k4, List.append_assoc] at h
  obtain ⟨a1, h⟩ := memBytes_split h
  rw [length_header] at a1 h
  replace h := (memBytes_split h).2
  rw [length_alignSave, show tail headerLen = 0 from rfl, Nat.add_zero] at h
  obtain ⟨a2, h⟩ := memBytes_split h
  rw [length_localsBytes] at a2 h
  replace h := (memBytes_split h).2
  rw [length_alignSave, show tail localsLen = 0 from rfl, Nat.add_zero] at h
  obtain ⟨a3, h⟩ := memBytes_split h
  rw [length_memBytes] at a3 h
  replace h := (memBytes_split h).2
  rw [length_alignSave, show tail MaxChar = 0 from rfl, Nat.add_zero] at h
  obtain ⟨a4, h⟩ := memBytes_split h
  rw [length_memBytes] at a4 h
  replace h := (memBytes_split h).2
  rw [length_alignSave, tail_mul, Nat.add_zero] at h
  obtain ⟨a5, h⟩ := memBytes_split h
  rw [length_memBytes] at a5
  have hM : MaxChar = 264 := rfl
  rw [hM, show ptr + 24 + 24 + 264 = ptr + 312 by omega] at a4 a5
  rw [hM, show ptr + 24 + 24 = ptr + 48 by omega] at a3
  obtain ⟨e1, e2, e3, e4⟩ := localsBytes_read s (i := s.savedInitial) pad (by omega) (by omega) hr s.savedInitial_lt
  have sub : ∀ d k, d + k ≤ 24 → memBytes mem (ptr + 24 + d) k = ((s.localsBytes s.savedInitial pad).drop d).take k := by
    intro d k hdk
    rw [← a2]
    apply List.ext_getElem?
    intro i
    rw [List.getElem?_take]
    by_cases hi : i < k
    · rw [if_pos hi, List.getElem?_drop, memBytes_get hi, memBytes_get (by omega), Nat.add_assoc]
    · rw [if_neg hi, List.getElem?_eq_none (by simp; omega)]
  have b1 : num (memBytes mem (ptr + 24) 4) = s.statesCount := by rw [← e1]; exact congrArg num (sub 0 4 (by omega))
  have b2 : num (memBytes mem (ptr + 28) 4) = s.lettersCount := by rw [← e2]; exact congrArg num (sub 4 4 (by omega))
  have b3 : num (memBytes mem (ptr + 32) 4) = s.regexpsCount := by rw [← e3]; exact congrArg num (sub 8 4 (by omega))
  have b4 : num (memBytes mem (ptr + 40) 8) = s.savedInitial := by rw [← e4]; exact congrArg num (sub 16 8 (by omega))
  have hh : Header.ofBytes (memBytes mem ptr 24) = Header.mk' type localsLen := by rw [a1, header_ok ht]
  have hc : mapCount mem ptr = s.statesCount * s.lettersCount := by unfold mapCount; rw [b1, b2, k4]
  have ho : mapOld mem ptr = 0 := by unfold mapOld; rw [hh, if_neg (by simp [Header.mk'])]
  refine ⟨hh, ⟨b1, b2, b3, ?_, ?_, ?_, ?_⟩, ho, hc⟩
  · have i1 := hR.initial_bounds
    have i2 := hR.savedInitial_eq
    have i3 := hR.space'
    have hsz : ptr + 312 + 8 * (s.statesCount * s.lettersCount) ≤ 2 ^ 64 := hsp
    show (num (memBytes mem (ptr + 40) 8) + (ptr + 312)) % 2 ^ 64 + s.jumps = s.initial + (ptr + 312)
    rw [b4]
    omega
  · exact memBytes_eq a3
  · exact memBytes_eq a4
  · have : (mapped mem ptr).tags = ptr + 312 + 8 * (s.statesCount * s.lettersCount) := by
      show Scn.alignUp (ptr + 312 + 8 * mapCount mem ptr + mapOld mem ptr) 8 = _
      rw [hc, ho]
      unfold Scn.alignUp
      omega
    rw [this]
    exact memBytes_eq a5

end Loaded
end Pire
