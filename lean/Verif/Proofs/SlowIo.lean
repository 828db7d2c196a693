import Verif.Proofs.Slow
import Verif.Proofs.SimpleIo

/-!
# SlowScanner: copies, `Save`, `Load`, `Mmap`
-/

namespace Pire
open Spec Io
open Multi (Reader reader_take reader_ret reader_none reader_loadHeader Reader.bind Reader.aligned Reader.ite memBytes blockMem alignPtr memBytes_split length_memBytes alignPtr_aligned alignPtr_flag)

namespace Slow

variable {s s' : Slow}

/-- Nothing that `Next` and `Final` look at differs. -/
structure Same (s s' : Slow) : Prop where
  states : s'.statesCount = s.statesCount
  start : s'.start = s.start
  letters : s'.letters = s.letters
  finals : s'.finals = s.finals
  targets : ∀ q l, s'.targets q l = s.targets q l

theorem Same.repr (h : Same s s') {n : Nat} {E : Nat → Nat → Nat → Prop} {F : Nat → Prop} (hr : Repr s n E F) : Repr s' n E F := by
  refine ⟨h.states.trans hr.states, by rw [h.start]; exact hr.start, hr.lt, fun c hc => ?_, fun q hq => ?_⟩
  · obtain ⟨l, e, hj⟩ := hr.jump c hc
    refine ⟨l, by unfold translate at e ⊢; rw [h.letters]; exact e, fun q hq => ?_⟩
    rw [h.targets]; exact hj q hq
  · rw [h.finals]; exact hr.final q hq

/-- What fits in the file format. -/
structure Storable (s : Slow) : Prop where
  states : s.statesCount < 2 ^ 64
  lettersC : s.lettersCount < 2 ^ 64
  start : s.start < 2 ^ 64
  letters : s.letters.length = MaxChar
  letter : ∀ l ∈ s.letters, l < 2 ^ 64
  finals : s.finals.length = s.statesCount
  vec : s.vec.length = s.statesCount * s.lettersCount
  small : s.statesCount * s.lettersCount < 2 ^ 64
  total : 4 * s.vec.flatten.length < 2 ^ 64
  jump : ∀ x ∈ s.vec.flatten, x < 2 ^ 32
  jumps : s.jumps = .vecs s.vec
  empty : s.empty = false

theorem header_ok : Header.ofBytes (Header.mk' 3 localsLen).bytes = Header.mk' 3 localsLen := by
  apply header_roundtrip <;> simp [Header.mk', localsLen]

theorem takeNums_append (k : Nat) : ∀ (l : List Nat) (b : Bytes), (∀ x ∈ l, x < 256 ^ k) →
    takeNums k l.length (l.flatMap (le k) ++ b) = some (l, b) := by
  intro l
  induction l with
  | nil => intro b _; rfl
  | cons x l ih =>
    intro b h
    rw [List.flatMap_cons, List.append_assoc, List.length_cons]
    unfold takeNums
    rw [take_append (length_le _ _), Option.bind_some]
    simp only
    rw [ih b fun y hy => h y (List.mem_cons_of_mem _ hy), Option.map_some, num_le _ _ (h x (List.mem_cons_self ..))]

theorem takeVecs_append : ∀ (v : List (List Nat)) (b : Bytes), (∀ x ∈ v.flatten, x < 2 ^ 32) →
    takeVecs (v.map List.length) (v.flatten.flatMap (le 4) ++ b) = some (v, b) := by
  intro v
  induction v with
  | nil => intro b _; rfl
  | cons x v ih =>
    intro b h
    rw [List.flatten_cons] at h ⊢
    rw [List.flatMap_append, List.append_assoc, List.map_cons]
    unfold takeVecs
    rw [takeNums_append 4 x _ fun y hy => h y (List.mem_append_left _ hy), Option.bind_some]
    simp only
    rw [ih b fun y hy => h y (List.mem_append_right _ hy), Option.map_some]

theorem sizesOf_scanl (ls : List Nat) : ∀ c, c + ls.sum < 2 ^ 64 → sizesOf (ls.scanl (· + ·) c) = ls := by
  induction ls with
  | nil => intro c _; rfl
  | cons x ls ih =>
    intro c h
    rw [List.sum_cons] at h
    rw [List.scanl_cons]
    have hs : ∃ t, ls.scanl (· + ·) (c + x) = (c + x) :: t := by
      cases ls with
      | nil => exact ⟨[], rfl⟩
      | cons y l => exact ⟨_, List.scanl_cons ..⟩
    obtain ⟨t, ht⟩ := hs
    have ih' := ih (c + x) (by omega)
    rw [ht] at ih' ⊢
    unfold sizesOf
    rw [ih']
    congr 1
    omega

theorem positions_length (v : List (List Nat)) : (positions v).length = v.length + 1 := by
  unfold positions; rw [List.length_scanl, List.length_map]

theorem scanl_le (ls : List Nat) : ∀ c, ∀ x ∈ ls.scanl (· + ·) c, x ≤ c + ls.sum := by
  induction ls with
  | nil => intro c x hx; simp at hx; omega
  | cons y ls ih =>
    intro c x hx
    rw [List.scanl_cons, List.mem_cons] at hx
    rw [List.sum_cons]
    rcases hx with rfl | hx
    · omega
    · have := ih _ x hx; omega

theorem positions_le (v : List (List Nat)) : ∀ x ∈ positions v, x ≤ v.flatten.length := by
  intro x hx
  have := scanl_le _ _ x hx
  rw [List.length_flatten]; omega

theorem positions_get (v : List (List Nat)) {i : Nat} (hi : i ≤ v.length) : (positions v)[i]? = some (v.take i).flatten.length := by
  unfold positions
  have gen : ∀ (v : List (List Nat)) (c i : Nat), i ≤ v.length →
      ((v.map List.length).scanl (· + ·) c)[i]? = some (c + (v.take i).flatten.length) := by
    intro v
    induction v with
    | nil => intro c i hi; simp at hi; subst hi; simp
    | cons x v ih =>
      intro c i hi
      rw [List.map_cons, List.scanl_cons]
      cases i with
      | zero => simp
      | succ i =>
        rw [List.getElem?_cons_succ, ih _ i (by simpa using hi), List.take_succ_cons, List.flatten_cons, List.length_append]
        congr 1; omega
  rw [gen v 0 i hi, Nat.zero_add]

theorem flat_targets (v : List (List Nat)) (i : Nat) :
    (do
      let b ← (positions v)[i]?
      let e ← (positions v)[i + 1]?
      if b ≤ e ∧ e ≤ v.flatten.length then some ((v.flatten.drop b).take (e - b)) else none) = v[i]? := by
  by_cases hi : i < v.length
  · rw [positions_get v hi.le, positions_get v (show i + 1 ≤ v.length from hi)]
    simp only [Option.bind_eq_bind, Option.bind_some]
    have h1 : (v.take (i + 1)).flatten = (v.take i).flatten ++ v[i] := by
      rw [List.take_succ_eq_append_getElem hi, List.flatten_append]; simp
    have h2 : v.flatten = (v.take i).flatten ++ (v[i] ++ (v.drop (i + 1)).flatten) := by
      conv_lhs => rw [← List.take_append_drop (i + 1) v]
      rw [List.flatten_append, h1, List.append_assoc]
    rw [h1, List.length_append, if_pos ⟨by omega, by rw [h2]; simp only [List.length_append]; omega⟩, h2, List.drop_left,
      Nat.add_sub_cancel_left, List.take_left, List.getElem?_eq_getElem hi]
  · have h3 : (positions v)[i + 1]? = none := by
      rw [List.getElem?_eq_none_iff, positions_length]; omega
    have h4 : v[i]? = none := List.getElem?_eq_none (by omega)
    rw [h3, h4]
    cases (positions v)[i]? <;> rfl

/-- The saved bytes, in the order they are read. -/
theorem save_assoc (s : Slow) (rest : Bytes) : s.save ++ rest =
    (Header.mk' 3 localsLen).bytes ++ alignSave headerLen ++
      ([s.statesCount, s.lettersCount, s.start].flatMap (le 8) ++ (alignSave localsLen ++ (le 1 (if s.empty then 1 else 0) ++ (alignSave 1 ++
        ((if s.empty then [] else
          s.letters.flatMap (le 8) ++ (alignSave (MaxChar * 8) ++ ((s.finals.map fun b => if b then 1 else 0).flatMap (le 1) ++
          (alignSave s.finals.length ++ ((positions s.vec).flatMap (le 8) ++ (alignSave ((s.vec.length + 1) * 8) ++
          (s.vec.flatten.flatMap (le 4) ++ alignSave (4 * s.vec.flatten.length)))))))) ++ rest))))) := by
  unfold save
  simp only [List.append_assoc, List.flatMap_cons, List.flatMap_nil, List.append_nil, List.flatMap_map]

theorem tail_mul8 (n : Nat) : tail (n * 8) = 0 := by unfold tail Scn.alignUp; omega

theorem load_save_stage {null : Slow} {n k i : Nat} (hn : n < 2 ^ 64) (hk : k < 2 ^ 64) (hi : i < 2 ^ 64) (e : Bool) (b : Bytes) :
    load null ((Header.mk' 3 localsLen).bytes ++ alignSave headerLen ++
      ([n, k, i].flatMap (le 8) ++ (alignSave localsLen ++ (le 1 (if e then 1 else 0) ++ (alignSave 1 ++ b))))) =
    if e then some (null.aliased, b) else
        (takeNums 8 MaxChar b).bind fun ls => (alignLoad (MaxChar * 8) ls.2).bind fun b =>
        (takeNums 1 n b).bind fun fs => (alignLoad n fs.2).bind fun b =>
        (takeNums 8 (k * n % 2 ^ 64 + 1) b).bind fun ps =>
        (takeVecs (sizesOf ps.1) ps.2).bind fun vs => (alignLoad (4 * vs.1.flatten.length) vs.2).bind fun b =>
        some ({ statesCount := n, lettersCount := k, start := i, finals := fs.1.map (· != 0), letters := ls.1,
                vec := vs.1, jumps := .vecs vs.1, empty := false }, b) := by
  unfold load
  rw [loadHeader_append header_ok (mk'_valid _ _), Option.bind_some]
  simp only
  have e1 := takeNums_append 8 [n, k, i] (alignSave localsLen ++ (le 1 (if e then 1 else 0) ++ (alignSave 1 ++ b)))
    (by
      intro x hx
      rw [show (256 : Nat) ^ 8 = 2 ^ 64 by norm_num]
      rcases List.mem_cons.1 hx with rfl | hx
      · exact hn
      rcases List.mem_cons.1 hx with rfl | hx
      · exact hk
      rcases List.mem_cons.1 hx with rfl | hx
      · exact hi
      · cases hx)
  rw [show [n, k, i].length = 3 from rfl] at e1
  rw [e1, Option.bind_some]
  simp only
  rw [alignLoad_append (length_alignSave _), Option.bind_some]
  rw [take_append (length_le _ _), Option.bind_some, alignLoad_append (length_alignSave _), Option.bind_some]
  have e2 : [n, k, i].getD 0 0 = n := rfl
  have e3 : [n, k, i].getD 1 0 = k := rfl
  have e4 : [n, k, i].getD 2 0 = i := rfl
  rw [e2, e3, e4]
  cases e
  · refine (if_neg (show ¬ num (le 1 0) ≠ 0 by decide)).trans ?_
    rw [if_neg (by decide)]
  · exact (if_pos (show num (le 1 1) ≠ 0 by decide)).trans (if_pos (by decide)).symm

theorem bools_back (l : List Bool) : (l.map fun b => if b then 1 else 0).map (fun x : Nat => x != 0) = l := by
  rw [List.map_map]
  conv_rhs => rw [← List.map_id l]
  apply List.map_congr_left
  intro b _
  cases b <;> rfl

/-- Loading what was saved gives back the scanner. -/
theorem load_save {null : Slow} (h : Storable s) (rest : Bytes) : load null (s.save ++ rest) = some (s, rest) := by
  have p8 : (256 : Nat) ^ 8 = 2 ^ 64 := by norm_num
  rw [save_assoc, load_save_stage h.states h.lettersC h.start, h.empty, if_neg (by decide), if_neg (by decide)]
  simp only [List.append_assoc]
  rw [← h.letters, takeNums_append 8 _ _ (by rw [p8]; exact h.letter), Option.bind_some, h.letters,
    alignLoad_append (length_alignSave _), Option.bind_some]
  have ef := takeNums_append 1 (s.finals.map fun b => if b then 1 else 0)
    (alignSave s.finals.length ++ ((positions s.vec).flatMap (le 8) ++ (alignSave ((s.vec.length + 1) * 8) ++
          (s.vec.flatten.flatMap (le 4) ++ (alignSave (4 * s.vec.flatten.length) ++ rest)))))
    (by
      intro x hx
      obtain ⟨b, -, rfl⟩ := List.mem_map.1 hx
      cases b <;> decide)
  rw [List.length_map, h.finals] at ef
  rw [h.finals, ef, Option.bind_some]
  simp only
  rw [alignLoad_append (length_alignSave _), Option.bind_some]
  have ep := takeNums_append 8 (positions s.vec) (alignSave ((s.vec.length + 1) * 8) ++
          (s.vec.flatten.flatMap (le 4) ++ (alignSave (4 * s.vec.flatten.length) ++ rest)))
    (by
      intro x hx
      rw [p8]
      have := positions_le _ _ hx
      have := h.total
      omega)
  rw [positions_length, h.vec] at ep
  rw [Nat.mul_comm s.lettersCount, Nat.mod_eq_of_lt h.small, h.vec, ep, Option.bind_some]
  simp only
  have hs : sizesOf (positions s.vec) = s.vec.map List.length := by
    refine sizesOf_scanl _ 0 ?_
    have := h.total
    rw [List.length_flatten] at this
    omega
  have e0 : alignSave ((s.statesCount * s.lettersCount + 1) * 8) = [] := by unfold alignSave; rw [tail_mul8]; rfl
  rw [hs, e0, List.nil_append, takeVecs_append _ _ h.jump, Option.bind_some]
  simp only
  rw [alignLoad_append (length_alignSave _), Option.bind_some, bools_back]
  obtain ⟨a1, a2, a3, a4, a5, a6, a7, a8⟩ := s
  have hj := h.jumps; have he := h.empty
  simp only at hj he
  rw [hj, he]

theorem load_save_empty {null : Slow} (hn : s.statesCount < 2 ^ 64) (hk : s.lettersCount < 2 ^ 64) (hi : s.start < 2 ^ 64)
    (he : s.empty = true) (rest : Bytes) : load null (s.save ++ rest) = some (null.aliased, rest) := by
  rw [save_assoc, load_save_stage hn hk hi, he, if_pos rfl, if_pos rfl, List.nil_append]

theorem Reader.map {α β : Type} {f : Bytes → Option (α × Bytes)} (hf : Reader f) (g : α → β) :
    Reader fun b => (f b).map fun y => (g y.1, y.2) := by
  intro b c r h
  rw [Option.map_eq_some_iff] at h
  obtain ⟨⟨a, r1⟩, h1, h2⟩ := h
  injection h2 with h2 h3
  subst h2 h3
  obtain ⟨u, e1, e2⟩ := hf b a r1 h1
  exact ⟨u, e1, fun r' => by beta_reduce; rw [e2]; rfl⟩

theorem reader_takeNums (k n : Nat) : Reader (takeNums k n) := by
  induction n with
  | zero => exact reader_ret []
  | succ n ih =>
    show Reader fun b => (take k b).bind fun x => (takeNums k n x.2).map fun y => (num x.1 :: y.1, y.2)
    exact Reader.bind (reader_take k) fun x => Reader.map ih fun y => num x :: y

theorem reader_takeVecs (l : List Nat) : Reader (takeVecs l) := by
  induction l with
  | nil => exact reader_ret []
  | cons n l ih =>
    show Reader fun b => (takeNums 4 n b).bind fun x => (takeVecs l x.2).map fun y => (x.1 :: y.1, y.2)
    exact Reader.bind (reader_takeNums 4 n) fun x => Reader.map ih fun y => x :: y

theorem reader_load (null : Slow) : Reader (load null) := by
  unfold load
  refine Reader.bind (reader_loadHeader 3 localsLen) fun _ => ?_
  dsimp only
  refine Reader.bind (reader_takeNums 8 3) fun m => ?_
  dsimp only
  refine Reader.aligned (Reader.bind (reader_take 1) fun e => ?_)
  dsimp only
  by_cases hc : num e ≠ 0
  · simp only [if_pos hc]
    exact Reader.aligned (reader_ret _)
  simp only [if_neg hc]
  refine Reader.aligned ?_
  refine Reader.bind (reader_takeNums 8 MaxChar) fun ls => ?_
  dsimp only
  refine Reader.aligned (Reader.bind (reader_takeNums 1 _) fun fs => ?_)
  dsimp only
  refine Reader.aligned (Reader.bind (reader_takeNums 8 _) fun ps => ?_)
  dsimp only
  refine Reader.bind (reader_takeVecs _) fun vs => ?_
  dsimp only
  exact Reader.aligned (reader_ret _)

/-! ### Mmap -/

/-- `AlignPtr`: the pointer is moved to the next word, `size` stays as it is. -/
theorem alignPtr_eq {p size : Nat} (hs : p + 8 * size < 2 ^ 64) :
    alignPtr p size = if p % 8 ≠ 0 ∧ size = 0 then none else some (p + tail p, size) := by
  unfold alignPtr tail Scn.alignUp
  by_cases h : p % 8 = 0
  · rw [if_pos h, if_neg (fun hx => hx.1 h)]
    congr 2; omega
  · rw [if_neg h]
    simp only
    rw [Nat.mod_eq_of_lt (show p + 8 * size < 2 ^ 64 by omega)]
    by_cases h0 : size = 0
    · rw [if_pos (by omega), if_pos ⟨h, h0⟩]
    · rw [if_neg (by omega), if_neg (fun hx => h0 hx.2)]
      have e : p + ((p + (8 - 1)) / 8 * 8 - p) = (p + (8 - 1)) / 8 * 8 := by omega
      rw [e]
      congr 2
      omega

theorem tail_lt (n : Nat) : tail n < 8 := by unfold tail Scn.alignUp; omega

theorem tail_add {p n : Nat} (h : p % 8 = 0) : tail (p + n) = tail n := by unfold tail Scn.alignUp; omega

theorem add_tail_mod (n : Nat) : (n + tail n) % 8 = 0 := by unfold tail Scn.alignUp; omega

/-- `MapPtr` at an aligned address. -/
theorem mapPtr_eq {k count p size : Nat} (ha : p % 8 = 0) (hs : p + 8 * size < 2 ^ 64) :
    mapPtr k count p size =
      if size < count * k % 2 ^ 64 ∨ (size = count * k % 2 ^ 64 ∧ size % 8 ≠ 0) then none
      else some (p + (count * k % 2 ^ 64 + tail (count * k % 2 ^ 64)), size - count * k % 2 ^ 64) := by
  unfold mapPtr
  generalize count * k % 2 ^ 64 = m
  by_cases h1 : size < m
  · rw [if_pos h1, if_pos (.inl h1)]
  · rw [if_neg h1, alignPtr_eq (by omega)]
    by_cases h2 : size = m ∧ size % 8 ≠ 0
    · rw [if_pos ⟨by omega, by omega⟩, if_pos (.inr h2)]
    · rw [if_neg (by omega), if_neg (by omega), tail_add ha, Nat.add_assoc]

/-- A mapped array. -/
theorem memNums_eq (mem : Mem) (k : Nat) : ∀ (l : List Nat) (p : Nat), (∀ x ∈ l, x < 256 ^ k) →
    memBytes mem p (l.flatMap (le k)).length = l.flatMap (le k) → memNums mem k p l.length = l := by
  intro l
  induction l with
  | nil => intro p _ _; rfl
  | cons x l ih =>
    intro p hx h
    rw [List.flatMap_cons] at h
    obtain ⟨h1, h2⟩ := memBytes_split h
    rw [length_le] at h1 h2
    have := ih (p + k) (fun y hy => hx y (List.mem_cons_of_mem _ hy)) h2
    unfold memNums at this ⊢
    rw [List.length_cons, List.range_succ_eq_map, List.map_cons, List.map_map]
    congr 1
    · rw [Nat.mul_zero, Nat.add_zero, h1, num_le _ _ (hx x (List.mem_cons_self ..))]
    · conv_rhs => rw [← this]
      apply List.map_congr_left
      intro i _
      simp only [Function.comp]
      rw [show p + k * i.succ = p + k + k * i by rw [Nat.mul_succ]; omega]

theorem length_flatMap_le (k : Nat) (l : List Nat) : (l.flatMap (le k)).length = l.length * k := by
  induction l with
  | nil => simp
  | cons x l ih => rw [List.flatMap_cons, List.length_append, length_le, ih, List.length_cons, Nat.succ_mul, Nat.add_comm]

/-- How many bytes are saved. -/
theorem length_save (h : Storable s) : s.save.length =
    2168 + (s.statesCount + tail s.statesCount) + 8 * (s.statesCount * s.lettersCount + 1) +
      (4 * s.vec.flatten.length + tail (4 * s.vec.flatten.length)) := by
  have := congrArg List.length (save_assoc s [])
  rw [List.append_nil] at this
  rw [this, h.empty, if_neg (by decide), if_neg (by decide)]
  simp only [List.length_append, length_header, length_alignSave, length_le, length_flatMap_le, positions_length, h.letters, h.finals, h.vec,
    List.length_map, tail_mul8, show tail headerLen = 0 from rfl, show tail localsLen = 0 from rfl, show tail 1 = 7 from rfl,
    List.length_cons, List.length_nil]
  have hM : MaxChar = 264 := rfl
  rw [hM]
  omega

/-- What is in memory after `Save` wrote there: the header, the locals, the flag, and the arrays. -/
theorem saved_in_memory {mem : Mem} {ptr : Nat} (h : Storable s) (hm : memBytes mem ptr s.save.length = s.save) :
    (Header.ofBytes (memBytes mem ptr 24)).valid 3 localsLen = true ∧
    num (memBytes mem (ptr + 24) 8) = s.statesCount ∧ num (memBytes mem (ptr + 32) 8) = s.lettersCount ∧
    num (memBytes mem (ptr + 40) 8) = s.start ∧ mem (ptr + 48) = 0 ∧
    memNums mem 8 (ptr + 56) MaxChar = s.letters ∧
    (memNums mem 1 (ptr + 2168) s.statesCount).map (· != 0) = s.finals ∧
    memNums mem 8 (ptr + 2168 + (s.statesCount + tail s.statesCount)) (s.statesCount * s.lettersCount + 1) = positions s.vec ∧
    memNums mem 4 (ptr + 2168 + (s.statesCount + tail s.statesCount) + 8 * (s.statesCount * s.lettersCount + 1)) s.vec.flatten.length =
      s.vec.flatten := by
  have p8 : (256 : Nat) ^ 8 = 2 ^ 64 := by norm_num
  have hn' := List.append_nil s.save
  rw [save_assoc, h.empty, if_neg (by decide), if_neg (by decide)] at hn'
  simp only [List.append_assoc, List.flatMap_cons, List.flatMap_nil, List.nil_append, List.append_nil] at hn'
  generalize hL : s.save.length = L at hm
  rw [← hn'] at hm
  obtain ⟨a1, hm⟩ := memBytes_split hm
  rw [length_header] at a1 hm
  have hm := (memBytes_split hm).2
  rw [length_alignSave, show tail headerLen = 0 from rfl, Nat.add_zero] at hm
  obtain ⟨a2, hm⟩ := memBytes_split hm
  rw [length_le] at a2 hm
  obtain ⟨a3, hm⟩ := memBytes_split hm
  rw [length_le] at a3 hm
  obtain ⟨a4, hm⟩ := memBytes_split hm
  rw [length_le] at a4 hm
  have hm := (memBytes_split hm).2
  rw [length_alignSave, show tail localsLen = 0 from rfl, Nat.add_zero] at hm
  obtain ⟨a5, hm⟩ := memBytes_split hm
  rw [length_le] at a5 hm
  have hm := (memBytes_split hm).2
  rw [length_alignSave, show tail 1 = 7 from rfl] at hm
  obtain ⟨a6, hm⟩ := memBytes_split hm
  have e6 : (s.letters.flatMap (le 8)).length = 2112 := by rw [length_flatMap_le, h.letters]; rfl
  rw [e6] at hm
  have hm := (memBytes_split hm).2
  rw [length_alignSave, tail_mul8, Nat.add_zero] at hm
  obtain ⟨a7, hm⟩ := memBytes_split hm
  have e7 : ((s.finals.map fun b => if b then 1 else 0).flatMap (le 1)).length = s.statesCount := by
    rw [length_flatMap_le, List.length_map, h.finals, Nat.mul_one]
  rw [e7] at hm
  have hm := (memBytes_split hm).2
  rw [length_alignSave, h.finals] at hm
  obtain ⟨a8, hm⟩ := memBytes_split hm
  have e8 : ((positions s.vec).flatMap (le 8)).length = 8 * (s.statesCount * s.lettersCount + 1) := by
    rw [length_flatMap_le, positions_length, h.vec, Nat.mul_comm]
  rw [e8] at hm
  have hm := (memBytes_split hm).2
  rw [length_alignSave, tail_mul8, Nat.add_zero] at hm
  obtain ⟨a9, -⟩ := memBytes_split hm
  rw [show ptr + 24 + 8 = ptr + 32 by omega] at a3
  rw [show ptr + 24 + 8 + 8 = ptr + 40 by omega] at a4
  rw [show ptr + 24 + 8 + 8 + 8 = ptr + 48 by omega] at a5
  rw [show ptr + 24 + 8 + 8 + 8 + 1 + 7 = ptr + 56 by omega] at a6
  rw [show ptr + 24 + 8 + 8 + 8 + 1 + 7 + 2112 = ptr + 2168 by omega] at a7
  rw [show ptr + 24 + 8 + 8 + 8 + 1 + 7 + 2112 + s.statesCount + tail s.statesCount = ptr + 2168 + (s.statesCount + tail s.statesCount) by omega] at a8 a9
  refine ⟨by rw [a1, header_ok]; exact mk'_valid _ _, by rw [a2, num_le8 _ h.states], by rw [a3, num_le8 _ h.lettersC],
    by rw [a4, num_le8 _ h.start], ?_, ?_, ?_, ?_, ?_⟩
  · have := congrArg List.head? a5
    simpa [memBytes, le, byteFin] using this
  · have := memNums_eq mem 8 s.letters _ (by rw [p8]; exact h.letter) a6
    rw [h.letters] at this; exact this
  · have := memNums_eq mem 1 (s.finals.map fun b => if b then 1 else 0) _ (by
      intro x hx
      obtain ⟨b, -, rfl⟩ := List.mem_map.1 hx
      cases b <;> decide) a7
    rw [List.length_map, h.finals] at this
    rw [this]; exact bools_back _
  · have := memNums_eq mem 8 (positions s.vec) _ (by
      intro x hx
      rw [p8]
      have := positions_le _ _ hx
      have := h.total
      omega) a8
    rw [positions_length, h.vec] at this; exact this
  · exact memNums_eq mem 4 s.vec.flatten _ h.jump a9

/-- The mapped scanner. -/
def mapped (s : Slow) : Slow := { s with vec := [], jumps := .flat (positions s.vec) s.vec.flatten }

theorem mapped_same (h : s.jumps = .vecs s.vec) : Same s (mapped s) := by
  refine ⟨rfl, rfl, rfl, rfl, fun q l => ?_⟩
  unfold targets
  rw [h]
  exact flat_targets s.vec (q * s.lettersCount + l)

theorem Mapping.ok_congr {s s' : Slow} {p l l' : Nat} (h : s = s') (hl : l = l') : Mapping.ok s p l = Mapping.ok s' p l' := by rw [h, hl]

theorem mapIn_save (h : Storable s) {mem : Mem} {ptr size : Nat} (ha : ptr % 8 = 0) (hs : ptr + 8 * size < 2 ^ 64)
    (hm : memBytes mem ptr s.save.length = s.save) (hsz : s.save.length ≤ size + 7) (h49 : 2168 < size)
    (hsz' : 2168 + (s.statesCount + tail s.statesCount) + 8 * (s.statesCount * s.lettersCount + 1) ≤ size)
    (hsz3 : 4 * s.vec.flatten.length + 2161 + s.statesCount + 8 * (s.statesCount * s.lettersCount + 1) < size) :
    mapIn mem ptr size = .ok (mapped s) (ptr + s.save.length) (size - 2161 - s.statesCount - 8 * (s.statesCount * s.lettersCount + 1) - 4 * s.vec.flatten.length) := by
  obtain ⟨m1, m2, m3, m4, m5, m6, m7, m8, m9⟩ := saved_in_memory h hm
  have hl := length_save h
  unfold mapIn
  have hM : MaxChar = 264 := rfl
  have ht1 := tail_lt s.statesCount
  have hmod := add_tail_mod s.statesCount
  have hmod4 := add_tail_mod (4 * s.vec.flatten.length)
  have hst := h.states
  have hsm := h.small
  have htot := h.total
  rw [if_neg (by omega), mapPtr_eq ha (by omega), if_neg (by unfold headerLen; omega)]
  simp only
  rw [show headerLen = 24 from rfl, m1, Bool.not_true, if_neg (by decide)]
  rw [show ptr + (1 * 24 % 2 ^ 64 + tail (1 * 24 % 2 ^ 64)) = ptr + 24 from rfl, show 1 * 24 % 2 ^ 64 = 24 from rfl]
  rw [mapPtr_eq (by omega) (by omega), if_neg (by unfold localsLen; omega)]
  simp only
  rw [show ptr + 24 + (1 * localsLen % 2 ^ 64 + tail (1 * localsLen % 2 ^ 64)) = ptr + 48 from rfl, show 1 * localsLen % 2 ^ 64 = 24 from rfl]
  rw [show ptr + 24 + 8 = ptr + 32 from rfl, show ptr + 24 + 16 = ptr + 40 from rfl, m2, m3, m4, m5]
  rw [if_neg (by omega), alignPtr_flag (by omega) (by omega), if_neg (by omega)]
  simp only
  rw [if_neg (fun hx => hx rfl), hM, show ptr + 48 + 8 = ptr + 56 from rfl, mapPtr_eq (by omega) (by omega), if_neg (by omega)]
  simp only
  rw [show ptr + 56 + (264 * 8 % 2 ^ 64 + tail (264 * 8 % 2 ^ 64)) = ptr + 2168 from rfl, show 264 * 8 % 2 ^ 64 = 2112 from rfl]
  rw [mapPtr_eq (by omega) (by omega), Nat.mul_one, Nat.mod_eq_of_lt h.states, if_neg (by omega)]
  simp only
  rw [Nat.mod_eq_of_lt h.small]
  have hnk : s.statesCount * s.lettersCount + 1 < 2 ^ 64 := by omega
  have hnk8 : (s.statesCount * s.lettersCount + 1) * 8 < 2 ^ 64 := by omega
  rw [Nat.mod_eq_of_lt hnk, mapPtr_eq (by omega) (by omega), Nat.mod_eq_of_lt hnk8, if_neg (by omega), tail_mul8]
  simp only
  rw [if_neg (by omega)]
  have hlast : num (memBytes mem (ptr + 2168 + (s.statesCount + tail s.statesCount) + 8 * (s.statesCount * s.lettersCount)) 8) =
      s.vec.flatten.length := by
    have := congrArg (fun l => l[s.statesCount * s.lettersCount]?) m8
    rw [positions_get s.vec (by rw [h.vec]), ← h.vec, List.take_length] at this
    unfold memNums at this
    rw [List.getElem?_map, List.getElem?_range (by omega), Option.map_some, Option.some.injEq, h.vec] at this
    exact this
  rw [hlast]
  have h4 : s.vec.flatten.length * 4 % 2 ^ 64 = 4 * s.vec.flatten.length := by rw [Nat.mul_comm]; exact Nat.mod_eq_of_lt htot
  rw [mapPtr_eq (by omega) (by omega), h4, if_neg (by omega)]
  simp only
  rw [Nat.add_zero (( _ : Nat) * 8), Nat.mul_comm _ 8, ← hM, m6, m7, m8, m9]
  have hpe : ptr + 2168 + (s.statesCount + tail s.statesCount) + 8 * (s.statesCount * s.lettersCount + 1) +
      (4 * s.vec.flatten.length + tail (4 * s.vec.flatten.length)) = ptr + s.save.length := by rw [hl]; omega
  rw [hpe]
  have he := h.empty
  refine Mapping.ok_congr ?_ (by omega)
  clear * - he
  unfold mapped
  obtain ⟨b1, b2, b3, b4, b5, b6, b7, b8⟩ := s
  simp only at he
  rw [he]

theorem mmap_save (h : Storable s) (self : Slow) {mem : Mem} {ptr size : Nat} (ha : ptr % 8 = 0) (hs : ptr + 8 * size < 2 ^ 64)
    (hm : memBytes mem ptr s.save.length = s.save) (hsz : s.save.length ≤ size + 7) (h49 : 2168 < size)
    (hsz' : 2168 + (s.statesCount + tail s.statesCount) + 8 * (s.statesCount * s.lettersCount + 1) ≤ size)
    (hsz3 : 4 * s.vec.flatten.length + 2161 + s.statesCount + 8 * (s.statesCount * s.lettersCount + 1) < size) :
    mmap self mem ptr size = .ok (mapped s) (ptr + s.save.length) := by
  unfold mmap
  rw [mapIn_save h ha hs hm hsz h49 hsz' hsz3]

end Slow
end Pire
