import Verif.Model.CaptureIo
import Verif.Proofs.CaptureTable
import Verif.Proofs.CaptureCongr
import Verif.Proofs.CaptureSurround
import Verif.Proofs.SlowIo

/-!
# `SlowCapturingScanner`: storage
-/

namespace Pire
namespace Capture
open Spec Io Slow
open Multi (Reader reader_ret Reader.bind Reader.aligned Reader.ite memBytes memBytes_split length_memBytes)

/-- A table as storage. -/
def Table.access (t : Table) : Access := ⟨t.statesCount, t.start, t.nextStates, t.isFinal⟩

theorem Table.access_explore (t : Table) : ∀ n acc cur l pos, t.access.explore n acc cur l pos = t.explore n acc cur l pos := by
  intro n
  induction n with
  | zero => intros; rfl
  | succ n ih =>
    intro acc cur l pos
    rw [Access.explore, Table.explore]
    simp only [ih]
    rfl

theorem Table.access_captured (t : Table) (s : Single) : t.access.captured s = t.captured s := by
  have hi : ∀ (tr : Nat × Nat) es m, Access.captured.inner t.access s tr es m = Table.captured.inner t s tr es m := by
    intro tr es
    induction es with
    | nil => intro m; rfl
    | cons e es ih =>
      intro m
      rw [Access.captured.inner, Table.captured.inner]
      simp only [ih]
      rfl
  have hl : ∀ trs m, Access.captured.loop t.access s trs m = Table.captured.loop t s trs m := by
    intro trs
    induction trs with
    | nil => intro m; rfl
    | cons tr trs ih =>
      intro m
      rw [Access.captured.loop, Table.captured.loop]
      simp only [ih, hi]
      rfl
  unfold Access.captured Table.captured
  simp only [hl]
  rfl

theorem Table.access_pushAll (t : Table) : ∀ ss n, t.access.pushAll n ss = t.pushAll n ss := by
  intro ss
  induction ss with
  | nil => intro n; rfl
  | cons s ss ih =>
    intro n
    rw [Access.pushAll, Table.pushAll]
    simp only [ih, t.access_captured]

theorem Table.access_update (t : Table) (n : SState) (g : Groups) : t.access.update n g = t.update n g := by
  unfold Access.update Table.update
  rw [t.access_pushAll]

theorem Table.access_nextLoop (t : Table) (l : Nat) : ∀ cs acc, t.access.nextLoop l cs acc = t.nextLoop l cs acc := by
  intro cs
  induction cs with
  | nil => intro acc; rfl
  | cons c cs ih =>
    intro acc
    rw [Access.nextLoop, Table.nextLoop]
    simp only [ih, t.access_explore, t.access_update]
    rfl

theorem Table.access_run (t : Table) (w : List Nat) : t.access.run w = t.run w := by
  have h1 : t.access.initState = t.initState := by
    unfold Access.initState Table.initState
    simp only [t.access_explore, t.access_update]
    rfl
  have h2 : t.access.next = t.next := by
    funext c l
    unfold Access.next Table.next
    rw [t.access_nextLoop]
  unfold Access.run Table.run
  rw [h1, h2]

theorem Table.access_getCapture (t : Table) (s : SState) : t.access.getCapture s = t.getCapture s := by
  unfold Access.getCapture Table.getCapture
  have : ∀ xs, Access.getCapture.loop t.access s xs = Table.getCapture.loop t s xs := by
    intro xs
    induction xs with
    | nil => rfl
    | cons x xs ih =>
      rw [Access.getCapture.loop, Table.getCapture.loop]
      simp only [ih, t.access_captured]
  exact this _

/-! ### The transitions of a scanner -/

namespace SlowCap

theorem range'_back {α : Type} (l : List α) (n : Nat) : ∀ b, b + n ≤ l.length → ((List.range' b n).mapM fun i => l[i]?) = some ((l.drop b).take n) := by
  induction n with
  | zero => intro b _; simp
  | succ n ih =>
    intro b h
    rw [List.range'_succ, List.mapM_cons, ih (b + 1) (by omega), List.getElem?_eq_getElem (by omega), List.drop_eq_getElem_cons (by omega : b < l.length), List.take_succ_cons]
    rfl

theorem pair_get (l : List (Nat × Nat)) (i : Nat) : (((l.map Prod.fst)[i]?).bind fun j => ((l.map Prod.snd)[i]?).map fun a => (j, a)) = l[i]? := by
  rw [List.getElem?_map, List.getElem?_map]
  cases l[i]? <;> rfl

theorem zip_back (l : List (Nat × Nat)) : ((List.range (l.map Prod.fst).length).mapM fun i =>
    ((l.map Prod.fst)[i]?).bind fun j => ((l.map Prod.snd)[i]?).map fun a => (j, a)) = some l := by
  simp only [pair_get, List.length_map]
  rw [List.range_eq_range', range'_back l l.length 0 (by omega), List.drop_zero, List.take_length]

variable {f : Fsm} {d : Nat}

theorem compile_access (f : Fsm) (d : Nat) : (compile f d).access = (slowCompile f d).access := by
  have : (compile f d).nextStates = (slowCompile f d).nextStates := by
    funext q c
    show ((slowCompile f d).letters[c]?).bind _ = ((slowCompile f d).letters[c]?).bind _
    congr 1
    funext l
    show ((((slowCompile f d).vec.map (·.map Prod.fst))[_]?).bind fun js => (((slowCompile f d).vec.map (·.map Prod.snd))[_]?).bind fun as => _) = _
    rw [List.getElem?_map, List.getElem?_map]
    show _ = (slowCompile f d).vec[q * (slowCompile f d).lettersCount + l]?
    have e : (compile f d).base.lettersCount = (slowCompile f d).lettersCount := rfl
    rw [e]
    cases hv : (slowCompile f d).vec[q * (slowCompile f d).lettersCount + l]? with
    | none => rfl
    | some x =>
      rw [Option.map_some, Option.map_some, Option.bind_some, Option.bind_some]
      exact zip_back x
  unfold access Table.access
  rw [this]
  rfl

/-! ### What is stored -/

theorem mem_modify_flatten {α : Type} (y : α) : ∀ (v : List (List α)) (i : Nat) (x : α), x ∈ (v.modify i (· ++ [y])).flatten → x ∈ v.flatten ∨ x = y := by
  intro v
  induction v with
  | nil => intro i x h; cases i <;> simp at h
  | cons a v ih =>
    intro i x h
    cases i with
    | zero =>
      rw [List.modify_zero_cons, List.flatten_cons, List.append_assoc, List.mem_append, List.mem_append] at h
      rw [List.flatten_cons, List.mem_append]
      rcases h with h | h | h
      · exact .inl (.inl h)
      · exact .inr (List.mem_singleton.1 h)
      · exact .inl (.inr h)
    | succ i =>
      rw [List.modify_succ_cons, List.flatten_cons, List.mem_append] at h
      rw [List.flatten_cons, List.mem_append]
      rcases h with h | h
      · exact .inl (.inl h)
      · rcases ih i x h with h | h
        · exact .inl (.inr h)
        · exact .inr h

theorem foldl_modify_all {α : Type} {P : α → Prop} (W : List (Nat × α)) : ∀ v : List (List α), (∀ w ∈ W, P w.2) → (∀ x ∈ v.flatten, P x) →
    ∀ x ∈ (W.foldl (fun v w => v.modify w.1 (· ++ [w.2])) v).flatten, P x := by
  induction W with
  | nil => intro v _ h; exact h
  | cons w W ih =>
    intro v hW h
    refine ih _ (fun w' h' => hW w' (List.mem_cons_of_mem _ h')) fun x hx => ?_
    rcases mem_modify_flatten _ _ _ _ hx with hx | rfl
    · exact h x hx
    · exact hW w (List.mem_cons_self ..)

theorem foldl_modify_length {α : Type} (W : List (Nat × α)) : ∀ v : List (List α), (W.foldl (fun v w => v.modify w.1 (· ++ [w.2])) v).length = v.length := by
  induction W with
  | nil => intro v; rfl
  | cons w W ih => intro v; rw [List.foldl_cons, ih, List.length_modify]

theorem vec_small (f : Fsm) (d : Nat) : ∀ x ∈ (slowCompile f d).vec.flatten, x.1 < 2 ^ 32 ∧ x.2 < 2 ^ 32 := by
  rw [slowCompile_vec]
  refine foldl_modify_all _ _ (fun w hw => ?_) fun x hx => ?_
  · unfold writes at hw
    rw [List.mem_flatMap] at hw
    obtain ⟨fr, -, hw⟩ := hw
    rw [List.mem_flatMap] at hw
    obtain ⟨e, -, hw⟩ := hw
    obtain ⟨q, -, rfl⟩ := List.mem_map.1 hw
    exact ⟨Nat.mod_lt _ (by omega), Nat.mod_lt _ (by omega)⟩
  · rw [List.mem_flatten] at hx
    obtain ⟨l, hl, hx⟩ := hx
    rw [List.eq_of_mem_replicate hl] at hx
    cases hx

theorem vec_length (f : Fsm) (d : Nat) : (slowCompile f d).vec.length = (slowCompile f d).statesCount * (slowCompile f d).lettersCount := by
  rw [slowCompile_vec, foldl_modify_length, List.length_replicate]
  rfl

theorem letters_few {p : Partition} (h : p.WF) (ha : ∀ c, (p.inv c).isSome → c < 264) : p.size ≤ 264 := by
  have hsub : (p.set.map PClass.rep) ⊆ List.range 264 := fun x hx => by
    obtain ⟨e, he, rfl⟩ := List.mem_map.1 hx
    rw [List.mem_range]
    exact ha _ (by rw [h.inv_of_mem he (h.rep_mem e he)]; rfl)
  have hnd : (p.set.map PClass.rep).Nodup := by
    rw [List.Nodup, List.pairwise_map]
    exact h.sorted.imp fun h => Nat.ne_of_lt h
  have := (hnd.subperm hsub).length_le
  rwa [List.length_map, List.length_range] at this

/-- The number of transitions that are stored. -/
def jumpsCount (f : Fsm) (d : Nat) : Nat := (slowCompile f d).vec.flatten.length

theorem fst_flatten {α β : Type} (v : List (List (α × β))) : (v.map (·.map Prod.fst)).flatten = v.flatten.map Prod.fst := by
  rw [List.map_flatten]

theorem snd_flatten {α β : Type} (v : List (List (α × β))) : (v.map (·.map Prod.snd)).flatten = v.flatten.map Prod.snd := by
  rw [List.map_flatten]

theorem storable (h : (f.withDistance d).WF) (hs : (f.withDistance d).size ≤ 2 ^ 32) (ht : 4 * jumpsCount f d < 2 ^ 64) : Storable (compile f d).base := by
  obtain ⟨hw, hall, -, -⟩ := Fsm.sparse_letters h true
  have hlet : (slowCompile f d).lettersCount ≤ 264 := letters_few hw fun c hc => ((hall c).1 hc).1
  have hle : (slowCompile f d).statesCount * (slowCompile f d).lettersCount < 2 ^ 64 := by
    have : (slowCompile f d).statesCount * (slowCompile f d).lettersCount ≤ 2 ^ 32 * 264 := Nat.mul_le_mul hs hlet
    omega
  have hstates : (slowCompile f d).statesCount ≤ 2 ^ 32 := hs
  refine ⟨?_, ?_, ?_, ?_, ?_, ?_, ?_, hle, ?_, ?_, rfl, rfl⟩
  · show (slowCompile f d).statesCount < _; omega
  · show (slowCompile f d).lettersCount < _; omega
  · have h1 := h.init_lt
    show (f.withDistance d).initial < _
    omega
  · exact letterTable_len _
  · intro l hl
    have hl : l ∈ letterTable ((f.withDistance d).sparse true).letters := hl
    obtain ⟨c, hc, hl⟩ := List.mem_iff_getElem.1 hl
    have h2 : (letterTable ((f.withDistance d).sparse true).letters)[c]? = some l := by rw [List.getElem?_eq_getElem hc]; exact congrArg some hl
    have hc' : c < 264 := by rw [letterTable_len] at hc; exact hc
    obtain ⟨r, hr⟩ := Option.isSome_iff_exists.1 ((hall c).2 ⟨hc', fun _ => rfl⟩)
    obtain ⟨e, he, rfl, hm⟩ := (hw.inv_iff c r).1 hr
    rw [letterTable_get hw he hm hc', Option.some.injEq] at h2
    have := hw.idx_lt e he
    have h3 : ((f.withDistance d).sparse true).letters.size ≤ 264 := hlet
    unfold Partition.size at h3
    omega
  · show ((List.range _).map _).length = _
    rw [List.length_map, List.length_range]
    rfl
  · show ((slowCompile f d).vec.map _).length = _
    rw [List.length_map, vec_length]
    rfl
  · show 4 * ((slowCompile f d).vec.map (·.map Prod.fst)).flatten.length < _
    rw [fst_flatten, List.length_map]
    exact ht
  · show ∀ x ∈ ((slowCompile f d).vec.map (·.map Prod.fst)).flatten, _
    rw [fst_flatten]
    intro x hx
    obtain ⟨y, hy, rfl⟩ := List.mem_map.1 hx
    exact (vec_small f d y hy).1

theorem save_compile (f : Fsm) (d : Nat) : (compile f d).save =
    (compile f d).base.save ++ ((compile f d).actionsVec.flatten.flatMap (le 4) ++ alignSave (4 * jumpsCount f d)) := by
  unfold save
  rw [if_neg (by rintro (h | h) <;> cases h)]
  congr 4
  show ((slowCompile f d).vec.map (·.map Prod.snd)).flatten.length = _
  rw [snd_flatten, List.length_map]
  rfl

theorem load_save (h : (f.withDistance d).WF) (hs : (f.withDistance d).size ≤ 2 ^ 32) (ht : 4 * jumpsCount f d < 2 ^ 64) {self : SlowCap}
    (hn : self.needActions = true) (rest : Pire.Bytes) : load self ((compile f d).save ++ rest) = some (compile f d, rest) := by
  unfold load
  rw [save_compile, List.append_assoc, Slow.load_save (storable h hs ht), Option.bind_some]
  dsimp only
  rw [if_neg (by intro h; cases h), if_pos hn, List.append_assoc]
  have e : (compile f d).base.vec.map List.length = (compile f d).actionsVec.map List.length := by
    show ((slowCompile f d).vec.map _).map _ = ((slowCompile f d).vec.map _).map _
    rw [List.map_map, List.map_map]
    congr 1
    funext x
    show (x.map Prod.fst).length = (x.map Prod.snd).length
    rw [List.length_map, List.length_map]
  have e2 : (compile f d).actionsVec.flatten.length = jumpsCount f d := by
    show ((slowCompile f d).vec.map (·.map Prod.snd)).flatten.length = _
    rw [snd_flatten, List.length_map]
    rfl
  rw [e, takeVecs_append, Option.bind_some]
  · dsimp only
    rw [e2, alignLoad_append (length_alignSave _), Option.bind_some]
    rfl
  · show ∀ x ∈ ((slowCompile f d).vec.map (·.map Prod.snd)).flatten, _
    rw [snd_flatten]
    intro x hx
    obtain ⟨y, hy, rfl⟩ := List.mem_map.1 hx
    exact (vec_small f d y hy).2

theorem reader_load (self : SlowCap) : Reader (load self) := by
  unfold load
  refine Reader.bind (Slow.reader_load _) fun r => ?_
  by_cases h1 : r.empty = true
  · simp only [if_pos h1]; exact reader_ret _
  simp only [if_neg h1]
  by_cases h2 : self.needActions = true
  case neg => simp only [if_neg h2]; exact reader_ret _
  simp only [if_pos h2]
  refine Reader.bind (reader_takeVecs _) fun vs => ?_
  dsimp only
  exact Reader.aligned (reader_ret _)

/-! ### Mapping -/

/-- The mapped scanner; it has the actions if `need_actions` was set. -/
def mapped (f : Fsm) (d : Nat) (acts : Bool) : SlowCap :=
  { base := Slow.mapped (compile f d).base, needActions := false, actionsVec := [], actions := if acts then some ((slowCompile f d).vec.flatten.map Prod.snd) else none }

theorem fst_length (v : List (List (Nat × Nat))) (i : Nat) : ((v.map (·.map Prod.fst)).take i).flatten.length = (v.take i).flatten.length := by
  rw [← List.map_take, fst_flatten, List.length_map]

theorem mapped_access (f : Fsm) (d : Nat) : (mapped f d true).access = (slowCompile f d).access := by
  have : (mapped f d true).nextStates = (slowCompile f d).nextStates := by
    funext q c
    show ((slowCompile f d).letters[c]?).bind _ = ((slowCompile f d).letters[c]?).bind _
    congr 1
    funext l
    show (((positions ((slowCompile f d).vec.map (·.map Prod.fst)))[q * (slowCompile f d).lettersCount + l]?).bind fun b =>
      ((positions ((slowCompile f d).vec.map (·.map Prod.fst)))[q * (slowCompile f d).lettersCount + l + 1]?).bind fun e =>
        (List.range' b (e - b)).mapM fun i => ((((slowCompile f d).vec.map (·.map Prod.fst)).flatten)[i]?).bind fun j =>
          ((some ((slowCompile f d).vec.flatten.map Prod.snd)).bind (·[i]?)).map fun a => (j, a)) = (slowCompile f d).vec[q * (slowCompile f d).lettersCount + l]?
    generalize q * (slowCompile f d).lettersCount + l = i
    generalize (slowCompile f d).vec = v
    simp only [fst_flatten, Option.bind_some, pair_get]
    by_cases hi : i < v.length
    · rw [positions_get _ (by rw [List.length_map]; exact hi.le), positions_get _ (by rw [List.length_map]; exact hi), Option.bind_some, Option.bind_some, fst_length, fst_length]
      have h1 : (v.take (i + 1)).flatten = (v.take i).flatten ++ v[i] := by
        rw [List.take_succ_eq_append_getElem hi, List.flatten_append]; simp
      have h2 : v.flatten = (v.take i).flatten ++ (v[i] ++ (v.drop (i + 1)).flatten) := by
        conv_lhs => rw [← List.take_append_drop (i + 1) v]
        rw [List.flatten_append, h1, List.append_assoc]
      rw [h1, List.length_append, Nat.add_sub_cancel_left, range'_back _ _ _ (by rw [h2]; simp only [List.length_append]; omega)]
      conv_lhs => rw [h2, List.drop_left, List.take_left]
      rw [List.getElem?_eq_getElem hi]
    · have h3 : (positions (v.map (·.map Prod.fst)))[i + 1]? = none := by
        rw [List.getElem?_eq_none_iff, positions_length, List.length_map]; omega
      have h4 : v[i]? = none := List.getElem?_eq_none (by omega)
      rw [h3, h4]
      cases (positions (v.map (·.map Prod.fst)))[i]? <;> rfl
  unfold access Table.access
  rw [this]
  rfl

theorem length_base (f : Fsm) (d : Nat) : (compile f d).base.vec.flatten.length = jumpsCount f d := by
  show ((slowCompile f d).vec.map (·.map Prod.fst)).flatten.length = _
  rw [fst_flatten, List.length_map]
  rfl

theorem length_save (h : (f.withDistance d).WF) (hs : (f.withDistance d).size ≤ 2 ^ 32) (ht : 4 * jumpsCount f d < 2 ^ 64) :
    (compile f d).save.length = 2168 + ((slowCompile f d).statesCount + tail (slowCompile f d).statesCount) +
      8 * ((slowCompile f d).statesCount * (slowCompile f d).lettersCount + 1) + 2 * (4 * jumpsCount f d + tail (4 * jumpsCount f d)) := by
  have h1 := Slow.length_save (storable h hs ht)
  rw [length_base] at h1
  rw [save_compile, List.length_append, List.length_append, length_alignSave, length_flatMap_le, h1]
  have e2 : (compile f d).actionsVec.flatten.length = jumpsCount f d := by
    show ((slowCompile f d).vec.map (·.map Prod.snd)).flatten.length = _
    rw [snd_flatten, List.length_map]
    rfl
  rw [e2]
  show _ + 8 * ((slowCompile f d).statesCount * (slowCompile f d).lettersCount + 1) + _ + _ = _
  have : (compile f d).base.statesCount = (slowCompile f d).statesCount := rfl
  rw [this]
  omega

theorem okCongr {s : SlowCap} {p p' : Nat} (h : p = p') : MapResult.ok s p = MapResult.ok s p' := by rw [h]

theorem mmap_save (h : (f.withDistance d).WF) (hs : (f.withDistance d).size ≤ 2 ^ 32) (ht : 4 * jumpsCount f d < 2 ^ 64) (self : SlowCap) {mem : Mem} {ptr size : Nat}
    (ha : ptr % 8 = 0) (hsp : ptr + 8 * size < 2 ^ 64) (hm : memBytes mem ptr (compile f d).save.length = (compile f d).save)
    (hsz : (compile f d).save.length ≤ size) :
    mmap self mem ptr size = .ok (mapped f d self.needActions) (ptr + if self.needActions then (compile f d).save.length else (compile f d).base.save.length) := by
  have hst := storable h hs ht
  have hl := length_save h hs ht
  have hb := Slow.length_save hst
  rw [length_base, show (compile f d).base.statesCount = (slowCompile f d).statesCount from rfl,
    show (compile f d).base.lettersCount = (slowCompile f d).lettersCount from rfl] at hb
  have hm' := hm
  rw [save_compile] at hm'
  obtain ⟨hm1, hm2⟩ := memBytes_split hm'
  obtain ⟨hm3, -⟩ := memBytes_split hm2
  have t1 := tail_lt (slowCompile f d).statesCount
  have t2 := tail_lt (4 * jumpsCount f d)
  have m2 := add_tail_mod (4 * jumpsCount f d)
  have m1 := add_tail_mod (slowCompile f d).statesCount
  unfold mmap
  rw [mapIn_save hst ha hsp hm1 (by omega) (by omega)
    (by show 2168 + ((slowCompile f d).statesCount + tail (slowCompile f d).statesCount) + 8 * ((slowCompile f d).statesCount * (slowCompile f d).lettersCount + 1) ≤ size; omega)
    (by rw [length_base]; show 4 * jumpsCount f d + 2161 + (slowCompile f d).statesCount + 8 * ((slowCompile f d).statesCount * (slowCompile f d).lettersCount + 1) < size; omega),
    length_base, show (compile f d).base.statesCount = (slowCompile f d).statesCount from rfl, show (compile f d).base.lettersCount = (slowCompile f d).lettersCount from rfl]
  dsimp only
  by_cases hn : self.needActions = true
  · rw [if_pos hn, if_pos hn]
    have htot : (positions (compile f d).base.vec).getD ((slowCompile f d).statesCount * (slowCompile f d).lettersCount % 2 ^ 64) 0 = jumpsCount f d := by
      have hsm := hst.small
      have hsm : (slowCompile f d).statesCount * (slowCompile f d).lettersCount < 2 ^ 64 := hsm
      have hv : (compile f d).base.vec.length = (slowCompile f d).statesCount * (slowCompile f d).lettersCount := hst.vec
      rw [Nat.mod_eq_of_lt hsm, List.getD_eq_getElem?_getD, positions_get _ (by rw [hv]), ← hv, List.take_length, Option.getD_some, length_base]
    show (match mapPtr 4 ((positions (compile f d).base.vec).getD ((slowCompile f d).statesCount * (slowCompile f d).lettersCount % 2 ^ 64) 0) (ptr + (compile f d).base.save.length) _ with
      | none => MapResult.throws
      | some (p', _) => MapResult.ok (SlowCap.mk (Slow.mapped (compile f d).base) false []
          (some (memNums mem 4 (ptr + (compile f d).base.save.length) ((positions (compile f d).base.vec).getD ((slowCompile f d).statesCount * (slowCompile f d).lettersCount % 2 ^ 64) 0)))) p') = _
    have h4 : jumpsCount f d * 4 % 2 ^ 64 = 4 * jumpsCount f d := by rw [Nat.mul_comm]; exact Nat.mod_eq_of_lt ht
    rw [htot, mapPtr_eq (by omega) (by omega), h4, if_neg (by omega)]
    dsimp only
    have hacts : memNums mem 4 (ptr + (compile f d).base.save.length) (jumpsCount f d) = (slowCompile f d).vec.flatten.map Prod.snd := by
      have e2 : (compile f d).actionsVec.flatten = (slowCompile f d).vec.flatten.map Prod.snd := snd_flatten _
      have e3 : ((slowCompile f d).vec.flatten.map Prod.snd).length = jumpsCount f d := List.length_map _
      rw [e2] at hm3
      have := memNums_eq mem 4 ((slowCompile f d).vec.flatten.map Prod.snd) (ptr + (compile f d).base.save.length) (fun x hx => by
        obtain ⟨y, hy, rfl⟩ := List.mem_map.1 hx
        have := (vec_small f d y hy).2
        norm_num at this ⊢
        exact this) hm3
      rwa [e3] at this
    have e : mapped f d self.needActions = SlowCap.mk (Slow.mapped (compile f d).base) false [] (some ((slowCompile f d).vec.flatten.map Prod.snd)) := by
      rw [hn]; unfold mapped; rw [if_pos rfl]
    rw [hacts, e]
    exact okCongr (by omega)
  · rw [if_neg hn, if_neg hn]
    rw [Bool.not_eq_true] at hn
    have e : mapped f d self.needActions = SlowCap.mk (Slow.mapped (compile f d).base) false [] none := by
      rw [hn]; unfold mapped; rw [if_neg Bool.false_ne_true]
    rw [e]

end SlowCap
end Capture
end Pire

namespace Pire
namespace Capture
namespace SlowCap
open Spec Io Slow

/-- Without the first transitions there is no run. -/
theorem run_none {s : SlowCap} (h : s.nextStates s.base.start BeginMark = none) (w : List Nat) : s.run w = none := by
  have : s.access.initState = none := by
    unfold Access.initState Access.explore
    show ((s.nextStates s.base.start BeginMark).bind _).bind _ = none
    rw [h]
    rfl
  unfold run Access.run
  rw [this]
  rfl

/-- A mapped scanner without actions cannot make a step. -/
theorem mapped_without (f : Fsm) (d : Nat) {q c : Nat} {x : Nat × Nat} {xs : List (Nat × Nat)} (h : (slowCompile f d).nextStates q c = some (x :: xs)) :
    (mapped f d false).nextStates q c = none := by
  unfold Table.nextStates at h
  rw [Option.bind_eq_some_iff] at h
  obtain ⟨l, hl, hv⟩ := h
  have hl' : (mapped f d false).base.letters[c]? = some l := hl
  unfold nextStates
  rw [hl', Option.bind_some]
  show (((positions ((slowCompile f d).vec.map (·.map Prod.fst)))[q * (slowCompile f d).lettersCount + l]?).bind fun b =>
      ((positions ((slowCompile f d).vec.map (·.map Prod.fst)))[q * (slowCompile f d).lettersCount + l + 1]?).bind fun e =>
        (List.range' b (e - b)).mapM fun i => ((((slowCompile f d).vec.map (·.map Prod.fst)).flatten)[i]?).bind fun j =>
          ((none : Option (List Nat)).bind (·[i]?)).map fun a => (j, a)) = none
  generalize q * (slowCompile f d).lettersCount + l = i at hv ⊢
  revert hv
  generalize (slowCompile f d).vec = v
  intro hv
  obtain ⟨hi, hvi⟩ := List.getElem?_eq_some_iff.1 hv
  rw [positions_get _ (by rw [List.length_map]; exact hi.le), positions_get _ (by rw [List.length_map]; exact hi), Option.bind_some, Option.bind_some, fst_length, fst_length]
  have h1 : (v.take (i + 1)).flatten = (v.take i).flatten ++ v[i] := by
    rw [List.take_succ_eq_append_getElem hi, List.flatten_append]; simp
  rw [h1, List.length_append, Nat.add_sub_cancel_left, hvi, List.length_cons, List.range'_succ, List.mapM_cons]
  have : ∀ y : Option Nat, (y.bind fun j => ((none : Option (List Nat)).bind (·[(v.take i).flatten.length]?)).map fun a => (j, a)) = none := by
    intro y; cases y <;> rfl
  rw [this]
  rfl

/-- A scanner whose vectors of actions are missing cannot make a step. -/
theorem nextStates_without {s : SlowCap} {v : List (List Nat)} (hj : s.base.jumps = .vecs v) (ha : s.actionsVec = []) (q c : Nat) : s.nextStates q c = none := by
  unfold nextStates
  cases s.base.letters[c]? with
  | none => rfl
  | some l =>
    rw [Option.bind_some]
    dsimp only
    rw [hj, ha]
    dsimp only
    cases s.base.vec[q * s.base.lettersCount + l]? <;> rfl

end SlowCap
end Capture
end Pire

namespace Pire
namespace Slow
open Io

/-- Reading needs as many bytes as there are. -/
theorem takeNums_short (k : Nat) : ∀ (n : Nat) (b : Pire.Bytes), b.length < n * k → takeNums k n b = none := by
  intro n
  induction n with
  | zero => intro b h; omega
  | succ n ih =>
    intro b h
    unfold takeNums
    cases ht : take k b with
    | none => rfl
    | some x =>
      rw [Option.bind_some]
      obtain ⟨x1, x2⟩ := x
      obtain ⟨e1, e2⟩ := take_some ht
      have := congrArg List.length e1
      rw [List.length_append] at this
      rw [Nat.succ_mul] at h
      rw [ih x2 (by omega)]
      rfl

/-- What a mapped scanner saves lacks the jumps: it cannot be loaded. -/
theorem load_mapped {s : Slow} (h : Storable s) (h0 : 0 < s.vec.length) (null : Slow) : load null (mapped s).save = none := by
  have p8 : (256 : Nat) ^ 8 = 2 ^ 64 := by norm_num
  have e := save_assoc (mapped s) []
  rw [List.append_nil] at e
  rw [e, show (mapped s).statesCount = s.statesCount from rfl, show (mapped s).lettersCount = s.lettersCount from rfl, show (mapped s).start = s.start from rfl,
    load_save_stage h.states h.lettersC h.start, show (mapped s).empty = false from h.empty, if_neg (by decide), if_neg (by decide)]
  simp only [List.append_assoc]
  rw [show (mapped s).letters = s.letters from rfl, show (mapped s).finals = s.finals from rfl, show (mapped s).vec = [] from rfl]
  rw [← h.letters, takeNums_append 8 _ _ (by rw [p8]; exact h.letter), Option.bind_some, h.letters,
    alignLoad_append (length_alignSave _), Option.bind_some]
  have ef := takeNums_append 1 (s.finals.map fun b => if b then 1 else 0)
    (alignSave s.finals.length ++ ((positions []).flatMap (le 8) ++ (alignSave ((([] : List (List Nat)).length + 1) * 8) ++
          (([] : List (List Nat)).flatten.flatMap (le 4) ++ (alignSave (4 * ([] : List (List Nat)).flatten.length) ++ [])))))
    (by
      intro x hx
      obtain ⟨b, -, rfl⟩ := List.mem_map.1 hx
      cases b <;> decide)
  rw [List.length_map, h.finals] at ef
  rw [h.finals, ef, Option.bind_some]
  simp only
  rw [alignLoad_append (length_alignSave _), Option.bind_some, Nat.mul_comm s.lettersCount, Nat.mod_eq_of_lt h.small, ← h.vec, takeNums_short 8 _ _ ?_]
  · rfl
  · have e1 : ((positions []).flatMap (le 8) ++ (alignSave ((([] : List (List Nat)).length + 1) * 8) ++
          (([] : List (List Nat)).flatten.flatMap (le 4) ++ (alignSave (4 * ([] : List (List Nat)).flatten.length) ++ ([] : Pire.Bytes))))).length = 8 := rfl
    rw [e1]
    omega

end Slow

namespace Capture
namespace SlowCap
open Io Slow

theorem length_actions (f : Fsm) (d : Nat) : (compile f d).actionsVec.flatten.length = jumpsCount f d := by
  show ((slowCompile f d).vec.map (·.map Prod.snd)).flatten.length = _
  rw [snd_flatten, List.length_map]
  rfl

theorem vec_pos {f : Fsm} {d : Nat} (h : (f.withDistance d).WF) : 0 < (compile f d).base.vec.length := by
  show 0 < ((slowCompile f d).vec.map _).length
  rw [List.length_map, vec_length]
  obtain ⟨hw, hall, -, -⟩ := Fsm.sparse_letters h true
  have h2 : 0 < (slowCompile f d).statesCount := Nat.lt_of_le_of_lt (Nat.zero_le _) h.init_lt
  have h3 : 0 < (slowCompile f d).lettersCount := by
    obtain ⟨r, hr⟩ := Option.isSome_iff_exists.1 ((hall 0).2 ⟨by decide, fun h => absurd h (by decide)⟩)
    obtain ⟨e, he, -, -⟩ := (hw.inv_iff 0 r).1 hr
    exact List.length_pos_of_mem he
  exact Nat.mul_pos h2 h3

theorem null_small : Slow.null.statesCount < 2 ^ 64 ∧ Slow.null.lettersCount < 2 ^ 64 ∧ Slow.null.start < 2 ^ 64 := by
  have hr := Fsm.removeEpsilons_spec Fsm.WF.makeFalse
  obtain ⟨hw, hall, -, -⟩ := Fsm.sparse_letters hr.wf false
  have h1 : Slow.null.statesCount = 1 := hr.size
  have h2 : Slow.null.lettersCount ≤ 264 := letters_few hw fun c hc => ((hall c).1 hc).1
  have h3 : Slow.null.start = 0 := hr.initial
  omega

end SlowCap
end Capture
end Pire

namespace Pire
namespace Capture
namespace SlowCap
open Io Slow Spec
open Multi (memBytes)

theorem elems_bounded {S : Finset Nat} {n : Nat} (h : ∀ x ∈ S, x < n) : (elems S).length ≤ n := by
  have hnd : (elems S).Nodup := List.Nodup.filter _ List.nodup_range
  have hsub : elems S ⊆ List.range n := fun x hx => List.mem_range.2 (h x (mem_elems.1 hx))
  have := (hnd.subperm hsub).length_le
  rwa [List.length_range] at this

theorem flatMap_bounded {α β : Type} (g : α → List β) (k : Nat) : ∀ l : List α, (∀ x ∈ l, (g x).length ≤ k) → (l.flatMap g).length ≤ l.length * k := by
  intro l
  induction l with
  | nil => intro _; simp
  | cons x l ih =>
    intro h
    rw [List.flatMap_cons, List.length_append, List.length_cons, Nat.succ_mul]
    have h1 := h x (List.mem_cons_self ..)
    have h2 := ih fun y hy => h y (List.mem_cons_of_mem _ hy)
    omega

theorem modify_flatten_length {α : Type} (y : α) : ∀ (v : List (List α)) (i : Nat), (v.modify i (· ++ [y])).flatten.length ≤ v.flatten.length + 1 := by
  intro v
  induction v with
  | nil => intro i; cases i <;> simp
  | cons a v ih =>
    intro i
    cases i with
    | zero =>
      rw [List.modify_zero_cons, List.flatten_cons, List.flatten_cons]
      simp only [List.length_append, List.length_cons, List.length_nil]
      omega
    | succ i =>
      rw [List.modify_succ_cons, List.flatten_cons, List.flatten_cons, List.length_append, List.length_append]
      have := ih i
      omega

theorem foldl_modify_flatten {α : Type} (W : List (Nat × α)) : ∀ v : List (List α),
    (W.foldl (fun v w => v.modify w.1 (· ++ [w.2])) v).flatten.length ≤ v.flatten.length + W.length := by
  induction W with
  | nil => intro v; simp
  | cons w W ih =>
    intro v
    have h1 := ih (v.modify w.1 (· ++ [w.2]))
    have h2 := modify_flatten_length w.2 v w.1
    rw [List.foldl_cons, List.length_cons]
    omega

/-- There are at most as many transitions as triples of states and letters. -/
theorem jumpsCount_le {f : Fsm} {d : Nat} (h : (f.withDistance d).WF) : jumpsCount f d ≤ (f.withDistance d).size * (264 * (f.withDistance d).size) := by
  unfold jumpsCount
  rw [slowCompile_vec]
  revert h
  generalize f.withDistance d = g
  intro h
  obtain ⟨hw, hall, -, -⟩ := Fsm.sparse_letters h true
  have h1 := foldl_modify_flatten (writes (g.sparse true)) (List.replicate ((g.sparse true).size * (g.sparse true).letters.size) [])
  have h2 : (List.replicate ((g.sparse true).size * (g.sparse true).letters.size) ([] : List (Nat × Nat))).flatten.length = 0 := by
    rw [List.flatten_replicate_nil]; rfl
  have h3 : (g.sparse true).letters.set.length ≤ 264 := letters_few hw fun c hc => ((hall c).1 hc).1
  have h4 : (writes (g.sparse true)).length ≤ g.size * (264 * g.size) := by
    have := flatMap_bounded (fun fr => (g.sparse true).letters.set.flatMap fun e =>
      (elems ((g.sparse true).destinations fr e.rep)).map fun d =>
        (fr * (g.sparse true).letters.size + (letterTable (g.sparse true).letters).getD e.rep 0, (d % 2 ^ 32, (g.sparse true).output fr d % 2 ^ 32)))
      (264 * g.size) (List.range (g.sparse true).size) fun fr _ => by
        refine le_trans (flatMap_bounded _ g.size _ fun e _ => ?_) (Nat.mul_le_mul_right _ h3)
        rw [List.length_map]
        refine elems_bounded fun x hx => ?_
        unfold Fsm.destinations at hx
        have hx : x ∈ (g.tr fr ((g.sparse true).translate e.rep)).getD ∅ := hx
        revert hx
        generalize (g.sparse true).translate e.rep = c
        intro hx
        cases ht : g.tr fr c with
        | none => rw [ht] at hx; simp at hx
        | some S => rw [ht] at hx; exact (h.tr_lt fr c S ht).2.2 x hx
    rw [List.length_range] at this
    exact this
  omega

theorem edge_dst {g : Fsm} (h : g.Raw) (q c p : Nat) (he : g.Edge q c p) : p ∈ g.dst q c := by
  unfold Fsm.Edge Fsm.eff at he
  split at he
  · exact he
  · rw [h] at he; exact he

/-- An automaton that may begin with a mark: the compiled scanner has a transition with it from the start. -/
theorem begins {f g : Fsm} {E : Nat → Nat → Nat → Prop} (hA : Around f E) (hE : ∀ q c p, E q c p → p ∈ g.dst q c) (hg : g.WF) (hs : g.size ≤ 2 ^ 32)
    (ho : ∀ q p, g.output q p < 2 ^ 32) (hini : g.initial = f.size) {c : Nat} (hc : c < 264) :
    ∃ x xs, (slowCompile g).nextStates (slowCompile g).start c = some (x :: xs) := by
  obtain ⟨e1, -⟩ := slowCompile_exact hg hs ho
  have hst : (slowCompile g).start = g.initial := rfl
  have h2 := e1 g.initial hg.init_lt c hc
  rw [hst, h2, hini]
  have h4 : f.size ∈ elems (g.dst f.size c) := mem_elems.2 (hE _ _ _ ((hA f.size c f.size).2 (.inr (.inl ⟨rfl, rfl, hc⟩))))
  cases he : elems (g.dst f.size c) with
  | nil => rw [he] at h4; cases h4
  | cons x xs => exact ⟨_, _, rfl⟩

/-- A mapped scanner without actions that has something to do at the beginning cannot be run. -/
theorem mapped_run_none (g : Fsm) (d : Nat) {x : Nat × Nat} {xs : List (Nat × Nat)}
    (h : (slowCompile g d).nextStates (slowCompile g d).start BeginMark = some (x :: xs)) (w : List Nat) : (mapped g d false).run w = none :=
  run_none (mapped_without g d h) w

theorem memBytes_blockMem (ptr : Nat) (b : Pire.Bytes) : memBytes (Multi.blockMem ptr b) ptr b.length = b := by
  unfold memBytes Multi.blockMem
  refine List.ext_getElem (by rw [List.length_map, List.length_range]) fun i h1 h2 => ?_
  rw [List.getElem_map, List.getElem_range, if_pos (by omega), Nat.add_sub_cancel_left, List.getD_eq_getElem?_getD, List.getElem?_eq_getElem h2]
  rfl

end SlowCap
end Capture
end Pire
