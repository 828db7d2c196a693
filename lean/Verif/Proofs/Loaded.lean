import Verif.Model.Loaded
import Verif.Proofs.Simple
import Verif.Proofs.Glue

/-!
# Loaded scanners: memory, semantics
-/

namespace Pire
open Spec Multi

/-- A deterministic table with actions. -/
structure ATbl where
  n : Nat
  q0 : Nat
  step : Nat → Nat → Nat
  act : Nat → Nat → Nat
  tag : Nat → Nat

namespace Loaded

/-! ### Reading what was stored -/

theorem readLE1_write (mem : Mem) (a b v : Nat) : Scn.readLE (writeLE mem a 1 v) b 1 = if b = a then v % 256 else Scn.readLE mem b 1 := by
  split
  · rename_i h
    rw [h, readLE_write_same, Nat.pow_one]
  · exact readLE_write_disj _ (by omega)

theorem read_store_shift (s : Loaded) (i j sh a : Nat) : Scn.readLE (s.store i sh a).mem (s.jumpAt j) 4 =
    if j = i then sh % 2 ^ 32 else Scn.readLE s.mem (s.jumpAt j) 4 := by
  unfold store jumpAt
  simp only
  rw [readLE_write_disj _ (by omega)]
  split
  · rename_i h
    rw [h, readLE_write_same, show (256:Nat) ^ 4 = 2 ^ 32 by norm_num]
  · rename_i h
    exact readLE_write_disj _ (by omega)

theorem read_store_action (s : Loaded) (i j sh a : Nat) : Scn.readLE (s.store i sh a).mem (s.jumpAt j + 4) 4 =
    if j = i then a % 2 ^ 32 else Scn.readLE s.mem (s.jumpAt j + 4) 4 := by
  unfold store jumpAt
  simp only
  split
  · rename_i h
    rw [h, readLE_write_same, show (256:Nat) ^ 4 = 2 ^ 32 by norm_num]
  · rename_i h
    rw [readLE_write_disj _ (by omega), readLE_write_disj _ (by omega)]

/-- Stores leave memory outside of the transition alone. -/
theorem read_store_out (s : Loaded) (i sh a b k : Nat) (h : b + k ≤ s.jumpAt i ∨ s.jumpAt i + 8 ≤ b) :
    Scn.readLE (s.store i sh a).mem b k = Scn.readLE s.mem b k := by
  unfold store
  simp only
  rw [readLE_write_disj _ (by omega), readLE_write_disj _ (by omega)]

/-- Stores of transitions. -/
def stores (s : Loaded) (W : List (Nat × Nat × Nat)) : Loaded := W.foldl (fun s x => s.store x.1 x.2.1 x.2.2) s

/-- Everything but the memory is the same. -/
structure Same (s s' : Loaded) : Prop where
  states : s'.statesCount = s.statesCount
  lettersCount : s'.lettersCount = s.lettersCount
  regexps : s'.regexpsCount = s.regexpsCount
  initial : s'.initial = s.initial
  letters : s'.letters = s.letters
  jumps : s'.jumps = s.jumps
  tags : s'.tags = s.tags
  empty : s'.empty = s.empty

theorem Same.refl (s : Loaded) : Same s s := ⟨rfl, rfl, rfl, rfl, rfl, rfl, rfl, rfl⟩
theorem Same.trans {a b c : Loaded} (h : Same a b) (h' : Same b c) : Same a c :=
  ⟨h'.1.trans h.1, h'.2.trans h.2, h'.3.trans h.3, h'.4.trans h.4, h'.5.trans h.5, h'.6.trans h.6, h'.7.trans h.7, h'.8.trans h.8⟩
theorem same_store (s : Loaded) (i sh a : Nat) : Same s (s.store i sh a) := ⟨rfl, rfl, rfl, rfl, rfl, rfl, rfl, rfl⟩
theorem same_setTag (s : Loaded) (q v : Nat) : Same s (s.setTag q v) := ⟨rfl, rfl, rfl, rfl, rfl, rfl, rfl, rfl⟩
theorem same_setLetter (s : Loaded) (q v : Nat) : Same s (s.setLetter q v) := ⟨rfl, rfl, rfl, rfl, rfl, rfl, rfl, rfl⟩

theorem same_foldl {α : Type} (f : Loaded → α → Loaded) (hf : ∀ s x, Same s (f s x)) (l : List α) (s : Loaded) : Same s (l.foldl f s) := by
  induction l generalizing s with
  | nil => exact .refl s
  | cons x l ih => exact (hf s x).trans (ih _)

theorem same_stores (s : Loaded) (W : List (Nat × Nat × Nat)) : Same s (s.stores W) := same_foldl _ (fun _ _ => same_store _ _ _ _) W s

theorem Same.jumpAt {s s' : Loaded} (h : Same s s') (i : Nat) : s'.jumpAt i = s.jumpAt i := by unfold Loaded.jumpAt; rw [h.jumps]
theorem Same.indexToState {s s' : Loaded} (h : Same s s') (i : Nat) : s'.indexToState i = s.indexToState i := by
  unfold Loaded.indexToState; rw [h.jumpAt, h.lettersCount]

/-- What a transition is after the stores; actions need to agree in the bits stored only. -/
theorem read_stores' {W : List (Nat × Nat × Nat)} {i : Nat} (hc : ∀ v v' : Nat × Nat, (i, v) ∈ W → (i, v') ∈ W → (v.1, v.2 % 2 ^ 32) = (v'.1, v'.2 % 2 ^ 32))
    (s : Loaded) : ∀ v : Nat × Nat, (i, v) ∈ W → Scn.readLE (s.stores W).mem (s.jumpAt i) 4 = v.1 % 2 ^ 32 ∧
      Scn.readLE (s.stores W).mem (s.jumpAt i + 4) 4 = v.2 % 2 ^ 32 := by
  have key : ((∀ v : Nat × Nat, (i, v) ∈ W → Scn.readLE (s.stores W).mem (s.jumpAt i) 4 = v.1 % 2 ^ 32 ∧
      Scn.readLE (s.stores W).mem (s.jumpAt i + 4) 4 = v.2 % 2 ^ 32)) ∧
    ((∀ v, (i, v) ∉ W) → Scn.readLE (s.stores W).mem (s.jumpAt i) 4 = Scn.readLE s.mem (s.jumpAt i) 4 ∧
      Scn.readLE (s.stores W).mem (s.jumpAt i + 4) 4 = Scn.readLE s.mem (s.jumpAt i + 4) 4) := by
    induction W generalizing s with
    | nil => exact ⟨fun v h => absurd h (by simp), fun _ => ⟨rfl, rfl⟩⟩
    | cons x W ih =>
      have ih' := ih (fun v v' h h' => hc v v' (by simp [h]) (by simp [h'])) (s.store x.1 x.2.1 x.2.2)
      rw [(same_store s x.1 x.2.1 x.2.2).jumpAt] at ih'
      have e : (s.stores (x :: W)) = (s.store x.1 x.2.1 x.2.2).stores W := rfl
      rw [e]
      constructor
      · intro v hv
        by_cases hin : ∃ v', (i, v') ∈ W
        · obtain ⟨v', hv'⟩ := hin
          have hvv := hc v v' hv (by simp [hv'])
          rw [Prod.mk.injEq] at hvv
          rw [hvv.1, hvv.2]
          exact ih'.1 v' hv'
        · rcases List.mem_cons.1 hv with h | h
          · obtain ⟨e1, e2⟩ := ih'.2 fun v' hv' => hin ⟨v', hv'⟩
            rw [e1, e2, ← h, read_store_shift, read_store_action, if_pos rfl, if_pos rfl]
            exact ⟨rfl, rfl⟩
          · exact absurd ⟨v, h⟩ hin
      · intro hn
        obtain ⟨e1, e2⟩ := ih'.2 fun v hv => hn v (by simp [hv])
        have hne : i ≠ x.1 := fun h => hn x.2 (by rw [h]; simp)
        rw [e1, e2, read_store_shift, read_store_action, if_neg hne, if_neg hne]
        exact ⟨rfl, rfl⟩
  exact key.1

theorem read_stores_out {W : List (Nat × Nat × Nat)} {b k : Nat} (s : Loaded) (h : ∀ x ∈ W, b + k ≤ s.jumpAt x.1 ∨ s.jumpAt x.1 + 8 ≤ b) :
    Scn.readLE (s.stores W).mem b k = Scn.readLE s.mem b k := by
  induction W generalizing s with
  | nil => rfl
  | cons x W ih =>
    have e : (s.stores (x :: W)) = (s.store x.1 x.2.1 x.2.2).stores W := rfl
    rw [e, ih, read_store_out _ _ _ _ _ _ (h x (by simp))]
    intro y hy
    rw [(same_store s x.1 x.2.1 x.2.2).jumpAt]
    exact h y (by simp [hy])

/-! ### `SetJump` -/

/-- A call of `SetJump`. -/
structure Jump where
  src : Nat
  c : Nat
  dst : Nat
  act : Nat

/-- The calls of `SetJump`, one after another. -/
def setJumps (s : Loaded) (W : List Jump) : Loaded := W.foldl (fun s w => s.setJump w.src w.c w.dst w.act) s

/-- The store done by a call. -/
def jumpStore (s : Loaded) (w : Jump) : Nat × Nat × Nat :=
  (s.transitionIndex w.src w.c, (w.dst + 2 ^ 64 - w.src) % 2 ^ 64 * s.stateSize % 2 ^ 64, w.act)

theorem letter_store {s : Loaded} (hl : s.letters + 264 ≤ s.jumps) (i sh a : Nat) {c : Nat} (hc : c < 264) :
    (s.store i sh a).letter c = s.letter c := by
  unfold letter
  rw [(same_store s i sh a).letters]
  exact read_store_out _ _ _ _ _ _ (.inl (by unfold jumpAt; omega))

theorem setJumps_eq (s : Loaded) (hl : s.letters + 264 ≤ s.jumps) (W : List Jump) (hc : ∀ w ∈ W, w.c < 264) :
    s.setJumps W = s.stores (W.map s.jumpStore) := by
  induction W generalizing s with
  | nil => rfl
  | cons w W ih =>
    have e : s.setJumps (w :: W) = (s.setJump w.src w.c w.dst w.act).setJumps W := rfl
    have hs : Same s (s.setJump w.src w.c w.dst w.act) := same_store _ _ _ _
    rw [e, ih _ (by rw [hs.letters, hs.jumps]; exact hl) fun w hw => hc w (by simp [hw])]
    rw [List.map_cons]
    show _ = stores (s.setJump w.src w.c w.dst w.act) _
    congr 1
    apply List.map_congr_left
    intro w' hw'
    unfold jumpStore transitionIndex stateSize
    rw [hs.lettersCount]
    congr 2
    exact letter_store hl _ _ _ (hc w' (by simp [hw']))

/-- The arithmetic of jumps: differences of at most 2 GB survive the 32-bit shift. -/
theorem jump_arith {J q p n L : Nat} (hL : 0 < L) (hq : q < n) (hp : p < n) (hs : n * (L * 8) ≤ 2 ^ 31) (hJ : J + n * (L * 8) ≤ 2 ^ 64) :
    (J + 8 * (q * L) + signExtend ((p + 2 ^ 64 - q) % 2 ^ 64 * (L * 8) % 2 ^ 64 % 2 ^ 32)) % 2 ^ 64 = J + 8 * (p * L) := by
  have hq' : (q + 1) * L ≤ n * L := Nat.mul_le_mul_right _ hq
  have hp' : (p + 1) * L ≤ n * L := Nat.mul_le_mul_right _ hp
  rw [Nat.add_mul] at hq' hp'
  have hn : n * (L * 8) = 8 * (n * L) := by ring
  rw [hn] at hs hJ
  have hnb : n < 2 ^ 31 := by
    have : n * 1 ≤ n * L := Nat.mul_le_mul_left _ (by omega)
    omega
  rcases Nat.lt_or_ge p q with h | h
  · have e : (p + 2 ^ 64 - q) % 2 ^ 64 = 2 ^ 64 - (q - p) := by omega
    have e2 : (2 ^ 64 - (q - p)) * (L * 8) % 2 ^ 64 = 2 ^ 64 - 8 * (q * L - p * L) := by
      have hlt : p * L + L ≤ q * L := by
        have : (p + 1) * L ≤ q * L := Nat.mul_le_mul_right _ h
        rwa [Nat.add_mul, Nat.one_mul] at this
      have hd : (q - p) * (L * 8) = 8 * (q * L - p * L) := by rw [← Nat.sub_mul]; ring
      rw [Nat.sub_mul, hd]
      have hLL : ∃ k, L * 8 = k + 1 := ⟨L * 8 - 1, by omega⟩
      obtain ⟨k, hk⟩ := hLL
      rw [hk, Nat.mul_add, Nat.mul_one, Nat.add_comm (2 ^ 64 * k), Nat.sub_add_comm (by omega), Nat.add_mul_mod_self_left]
      omega
    rw [e, e2]
    unfold signExtend
    split <;> omega
  · have e : (p + 2 ^ 64 - q) % 2 ^ 64 = p - q := by omega
    have e2 : (p - q) * (L * 8) = 8 * (p * L) - 8 * (q * L) := by rw [Nat.sub_mul]; ring_nf
    have hle : q * L ≤ p * L := Nat.mul_le_mul_right _ h
    rw [e, e2]
    unfold signExtend
    split <;> omega

/-! ### What a scanner in memory encodes -/

/-- The arrays encode the table. -/
structure Repr (s : Loaded) (T : ATbl) : Prop where
  q0 : T.q0 < T.n
  step_lt : ∀ q < T.n, ∀ c, IsLetter c → T.step q c < T.n
  pos : 0 < s.lettersCount
  small : s.lettersCount ≤ 256
  align : s.jumps % 8 = 0
  space : s.jumps + T.n * (s.lettersCount * 8) ≤ 2 ^ 64
  limit : T.n * (s.lettersCount * 8) ≤ 2 ^ 31
  states : s.statesCount = T.n
  initial : s.initial = s.indexToState T.q0
  letter : ∀ c, IsLetter c → s.letter c < s.lettersCount
  next : ∀ q < T.n, ∀ c, IsLetter c → s.next (s.indexToState q) c = (s.indexToState (T.step q c), T.act q c)
  tag : ∀ q < T.n, s.tag q = T.tag q

theorem Repr.stateIdx {s : Loaded} {T : ATbl} (h : Repr s T) {q : Nat} (hq : q < T.n) : s.stateIdx (s.indexToState q) = q := by
  have h1 := h.space
  have h2 := h.pos
  have hq' : (q + 1) * s.lettersCount ≤ T.n * s.lettersCount := Nat.mul_le_mul_right _ hq
  have hn : T.n * (s.lettersCount * 8) = 8 * (T.n * s.lettersCount) := by ring
  rw [Nat.add_mul] at hq'
  unfold Loaded.stateIdx Loaded.indexToState Loaded.jumpAt
  have e : (s.jumps + 8 * (q * s.lettersCount) + 2 ^ 64 - s.jumps) % 2 ^ 64 = 8 * (q * s.lettersCount) := by omega
  rw [e, Nat.mul_div_cancel_left _ (by omega), Nat.mul_div_cancel _ h2]

theorem Repr.actionAt {s : Loaded} {T : ATbl} (h : Repr s T) {q c : Nat} (hq : q < T.n) (hc : IsLetter c) :
    s.actionAt (s.indexToState q) c = T.act q c := by
  have hn := congrArg Prod.snd (h.next q hq c hc)
  simp only at hn
  rw [← hn]
  unfold Loaded.actionAt Loaded.transitionIndex Loaded.next Loaded.nextTranslated
  rw [h.stateIdx hq]
  simp only
  congr 2
  unfold Loaded.indexToState Loaded.jumpAt
  ring

theorem Repr.congr {s : Loaded} {T T' : ATbl} (h : Repr s T) (hn : T'.n = T.n) (hq : T'.q0 = T.q0)
    (hs : ∀ q < T.n, ∀ c, IsLetter c → T'.step q c = T.step q c ∧ T'.act q c = T.act q c) (ht : ∀ q < T.n, T'.tag q = T.tag q) : Repr s T' where
  q0 := by rw [hn, hq]; exact h.q0
  step_lt := fun q hq' c hc => by rw [hn] at hq' ⊢; rw [(hs q hq' c hc).1]; exact h.step_lt q hq' c hc
  pos := h.pos
  small := h.small
  align := h.align
  space := by rw [hn]; exact h.space
  limit := by rw [hn]; exact h.limit
  states := by rw [hn]; exact h.states
  initial := by rw [hq]; exact h.initial
  letter := h.letter
  next := fun q hq' c hc => by rw [hn] at hq'; rw [(hs q hq' c hc).1, (hs q hq' c hc).2]; exact h.next q hq' c hc
  tag := fun q hq' => by rw [hn] at hq'; rw [ht q hq']; exact h.tag q hq'

/-- The letters are those of the partition. -/
def LettersOf (s : Loaded) (P : Partition) : Prop := ∀ e ∈ P.set, ∀ c ∈ e.members, s.letter c = e.idx

theorem foldl_setLetter_out (l : List (Nat × Nat)) (s : Loaded) {b k : Nat} (h : ∀ x ∈ l, b + k ≤ s.letters + x.1 ∨ s.letters + x.1 + 1 ≤ b) :
    Scn.readLE (l.foldl (fun s x => s.setLetter x.1 x.2) s).mem b k = Scn.readLE s.mem b k := by
  induction l generalizing s with
  | nil => rfl
  | cons x l ih =>
    rw [List.foldl_cons, ih (s.setLetter x.1 x.2) fun y hy => h y (by simp [hy])]
    exact readLE_write_disj _ (by have := h x (by simp); omega)

theorem foldl_setLetter {l : List (Nat × Nat)} (s : Loaded) {c v : Nat} (hc : (c, v) ∈ l) (hu : ∀ v', (c, v') ∈ l → v' = v) :
    (l.foldl (fun s x => s.setLetter x.1 x.2) s).letter c = v % 256 := by
  induction l generalizing s with
  | nil => cases hc
  | cons x l ih =>
    rw [List.foldl_cons]
    by_cases hin : (c, v) ∈ l
    · exact ih _ hin fun v' h' => hu v' (by simp [h'])
    · have hx : x = (c, v) := by
        rcases List.mem_cons.1 hc with h | h
        · exact h.symm
        · exact absurd h hin
      subst hx
      unfold letter
      rw [(same_foldl (fun (s : Loaded) (x : Nat × Nat) => s.setLetter x.1 x.2) (fun _ _ => same_setLetter _ _ _) l _).letters]
      rw [foldl_setLetter_out l]
      · exact (readLE1_write _ _ _ _).trans (if_pos rfl)
      · intro y hy
        have hne : y.1 ≠ c := fun h => by
          have := hu y.2 (by rw [← h]; simp [hy])
          apply hin
          rw [← this, ← h]; exact hy
        show s.letters + c + 1 ≤ s.letters + y.1 ∨ s.letters + y.1 + 1 ≤ s.letters + c
        omega

/-- The letter table as a list of stores. -/
def letterStores (P : Partition) : List (Nat × Nat) := P.set.flatMap fun e => e.members.map fun c => (c, e.idx)

theorem init_eq (base n : Nat) (P : Partition) (start r : Nat) : init base n P start r =
    (letterStores P).foldl (fun s x => s.setLetter x.1 x.2)
      (markup (n % 2 ^ 32) (P.size % 2 ^ 32) (r % 2 ^ 32) (base + MaxChar + 8 * (start * (P.size % 2 ^ 32))) base fun _ => 0) := by
  unfold init letterStores
  simp only
  rw [← Simple.foldl_flatMap']
  simp only [List.foldl_map]

theorem init_same (base n : Nat) (P : Partition) (start r : Nat) :
    Same (markup (n % 2 ^ 32) (P.size % 2 ^ 32) (r % 2 ^ 32) (base + MaxChar + 8 * (start * (P.size % 2 ^ 32))) base fun _ => 0)
      (init base n P start r) := by
  rw [init_eq]
  exact same_foldl _ (fun _ _ => same_setLetter _ _ _) _ _

theorem init_letters {base n : Nat} {P : Partition} (start r : Nat) (hw : P.WF) (hs : P.size ≤ 256) : LettersOf (init base n P start r) P := by
  intro e he c hc
  have hi : e.idx < 256 := lt_of_lt_of_le (hw.idx_lt e he) hs
  rw [init_eq, foldl_setLetter (v := e.idx)]
  · exact Nat.mod_eq_of_lt hi
  · exact List.mem_flatMap.2 ⟨e, he, List.mem_map.2 ⟨c, hc, rfl⟩⟩
  · intro v' h'
    obtain ⟨e', he', h''⟩ := List.mem_flatMap.1 h'
    obtain ⟨c', hc', h3⟩ := List.mem_map.1 h''
    rw [Prod.mk.injEq] at h3
    obtain ⟨rfl, rfl⟩ := h3
    rw [hw.class_unique' he' he hc' hc]

/-- Tags being set. -/
def setTags (s : Loaded) (W : List (Nat × Nat)) : Loaded := W.foldl (fun s x => s.setTag x.1 x.2) s

theorem setTags_out (l : List (Nat × Nat)) (s : Loaded) {b k : Nat} (h : b + k ≤ s.tags) :
    Scn.readLE (s.setTags l).mem b k = Scn.readLE s.mem b k := by
  induction l generalizing s with
  | nil => rfl
  | cons x l ih =>
    have e : s.setTags (x :: l) = (s.setTag x.1 x.2).setTags l := rfl
    rw [e, ih (s.setTag x.1 x.2) h]
    exact readLE_write_disj _ (by omega)

theorem same_setTags (s : Loaded) (W : List (Nat × Nat)) : Same s (s.setTags W) := same_foldl _ (fun _ _ => same_setTag _ _ _) W s

theorem setTags_other (l : List (Nat × Nat)) (s : Loaded) {q : Nat} (h : ∀ x ∈ l, x.1 ≠ q) : (s.setTags l).tag q = s.tag q := by
  induction l generalizing s with
  | nil => rfl
  | cons x l ih =>
    have e : s.setTags (x :: l) = (s.setTag x.1 x.2).setTags l := rfl
    rw [e, ih _ fun y hy => h y (by simp [hy])]
    exact (readLE1_write _ _ _ _).trans (if_neg (by have := h x (by simp); show ¬ s.tags + q = s.tags + x.1; omega))

theorem setTags_range (n : Nat) (g : Nat → Nat) (s : Loaded) {q : Nat} (hq : q < n) :
    (s.setTags ((List.range n).map fun i => (i, g i))).tag q = g q % 256 := by
  induction n generalizing s with
  | zero => omega
  | succ n ih =>
    rw [List.range_succ, List.map_append]
    unfold setTags
    rw [List.foldl_append]
    show (setTag (s.setTags _) n (g n)).tag q = _
    rcases Nat.lt_or_ge q n with h | h
    · rw [← ih s h]
      exact (readLE1_write _ _ _ _).trans (if_neg (by show ¬ (s.setTags _).tags + q = (s.setTags _).tags + n; omega))
    · have : q = n := by omega
      subst this
      exact (readLE1_write _ _ _ _).trans (if_pos rfl)

/-- **Building.** The letters are allocated and filled in, the tags set, then the jumps: one (as far as it matters) for every state and
class of letters. -/
theorem build_repr {base n q0 r : Nat} {P : Partition} {T : ATbl} {W : List Jump} (hw : P.WF) (ha : AllLetters P) (hP : P.size ≤ 256)
    (hT : T.n = n) (hq : T.q0 = q0) (h0 : q0 < n)
    (hb : base % 8 = 0) (hs : base + bufSize n P.size ≤ 2 ^ 64) (hlim : n * (P.size * 8) ≤ 2 ^ 31)
    (hstep : ∀ q < n, ∀ c, IsLetter c → T.step q c < n)
    (hin : ∀ w ∈ W, w.src < n ∧ IsLetter w.c ∧ w.dst = T.step w.src w.c ∧ w.act % 2 ^ 32 = T.act w.src w.c)
    (hall : ∀ q < n, ∀ e ∈ P.set, ∃ w ∈ W, w.src = q ∧ w.c = e.rep)
    (hcls : ∀ q < n, ∀ e ∈ P.set, ∀ c ∈ e.members, T.step q c = T.step q e.rep ∧ T.act q c = T.act q e.rep) :
    Repr (((init base n P q0 r).setTags ((List.range n).map fun i => (i, T.tag i))).setJumps W) { T with tag := fun q => T.tag q % 256 } ∧
    (((init base n P q0 r).setTags ((List.range n).map fun i => (i, T.tag i))).setJumps W).regexpsCount = r % 2 ^ 32 ∧
    (((init base n P q0 r).setTags ((List.range n).map fun i => (i, T.tag i))).setJumps W).empty = false ∧
    Same (markup n P.size (r % 2 ^ 32) (base + MaxChar + 8 * (q0 * P.size)) base fun _ => 0)
      (((init base n P q0 r).setTags ((List.range n).map fun i => (i, T.tag i))).setJumps W) := by
  have hM : MaxChar = 264 := rfl
  have hpos : 0 < P.size := by
    obtain ⟨e, he, _⟩ : ∃ e ∈ P.set, (0 : Nat) ∈ e.members := by
      have := (ha 0).2 ⟨by norm_num, by simp⟩
      obtain ⟨r, hr⟩ := Option.isSome_iff_exists.1 this
      obtain ⟨e, he, _, hm⟩ := (hw.inv_iff _ _).1 hr
      exact ⟨e, he, hm⟩
    exact lt_of_le_of_lt (Nat.zero_le _) (hw.idx_lt e he)
  have hn32 : n < 2 ^ 32 := by
    have : n * 8 ≤ n * (P.size * 8) := Nat.mul_le_mul_left _ (by omega)
    omega
  have hP32 : P.size % 2 ^ 32 = P.size := Nat.mod_eq_of_lt (by omega)
  have hnP : n * (P.size * 8) = 8 * (n * P.size) := by ring
  have hnm : n * P.size % 2 ^ 32 = n * P.size := Nat.mod_eq_of_lt (by omega)
  have h1 := init_same base n P q0 r
  have hsp : base + 264 + 8 * (n * P.size) + n ≤ 2 ^ 64 := by unfold bufSize at hs; rw [hM] at hs; omega
  rw [hP32, Nat.mod_eq_of_lt hn32] at h1
  have hl1 : LettersOf (init base n P q0 r) P := init_letters q0 r hw hP
  generalize hs1 : init base n P q0 r = s1 at h1 hl1 ⊢
  have h2 := same_setTags s1 ((List.range n).map fun i => (i, T.tag i))
  have ht2 := fun q (hq : q < n) => setTags_range n T.tag s1 hq
  have hout2 := fun b k => setTags_out (b := b) (k := k) ((List.range n).map fun i => (i, T.tag i)) s1
  generalize hs2 : s1.setTags ((List.range n).map fun i => (i, T.tag i)) = s2 at h2 ht2 hout2 ⊢
  have h12 := h1.trans h2
  have hjmp : s2.jumps = base + 264 := h12.jumps
  have hlet : s2.letters = base := h12.letters
  have htag : s2.tags = base + 264 + 8 * (n * P.size) := by rw [h12.tags]; show base + MaxChar + 8 * (n * P.size % 2 ^ 32) = _; rw [hnm]
  have hlc : s2.lettersCount = P.size := h12.lettersCount
  have hlay : s2.letters + 264 ≤ s2.jumps := by omega
  have hmem : ∀ e ∈ P.set, ∀ c ∈ e.members, IsLetter c := fun e he c hc => (ha c).1 (by rw [hw.inv_of_mem he hc]; rfl)
  have hl2 : LettersOf s2 P := by
    intro e he c hc
    have hc' := hmem e he c hc
    rw [← hl1 e he c hc]
    unfold letter
    rw [h2.letters]
    apply hout2
    rw [h1.tags, h1.letters]
    show base + c + 1 ≤ base + MaxChar + 8 * (n * P.size % 2 ^ 32)
    have := hc'.1
    omega
  have hclass : ∀ c, IsLetter c → ∃ e ∈ P.set, c ∈ e.members := by
    intro c hc
    obtain ⟨r, hr⟩ := Option.isSome_iff_exists.1 ((ha c).2 hc)
    obtain ⟨e, he, _, hm⟩ := (hw.inv_iff _ _).1 hr
    exact ⟨e, he, hm⟩
  rw [setJumps_eq s2 hlay W fun w hw => (hin w hw).2.1.1]
  have h3 := same_stores s2 (W.map s2.jumpStore)
  have hll : ∀ c, IsLetter c → ∃ e ∈ P.set, c ∈ e.members ∧ s2.letter c = e.idx ∧ e.idx < P.size := by
    intro c hc
    obtain ⟨e, he, hm⟩ := hclass c hc
    exact ⟨e, he, hm, hl2 e he c hm, hw.idx_lt e he⟩
  have hidx : ∀ q < n, ∀ k < P.size, q * P.size + k < n * P.size := by
    intro q hq k hk
    have : (q + 1) * P.size ≤ n * P.size := Nat.mul_le_mul_right _ hq
    rw [Nat.add_mul] at this
    omega
  have hWidx : ∀ x ∈ W.map s2.jumpStore, x.1 < n * P.size := by
    intro x hx
    obtain ⟨w, hw', rfl⟩ := List.mem_map.1 hx
    obtain ⟨a, b, _, _⟩ := hin w hw'
    obtain ⟨e, he, hm, e1, e2⟩ := hll w.c b
    show w.src * s2.lettersCount + s2.letter w.c < _
    rw [e1, hlc]
    exact hidx _ a _ e2
  -- letters survive the jumps
  have hl3 : ∀ c, IsLetter c → (s2.stores (W.map s2.jumpStore)).letter c = s2.letter c := by
    intro c hc
    unfold letter
    rw [h3.letters]
    apply read_stores_out
    intro x hx
    left
    unfold jumpAt
    have := hc.1
    omega
  have hidxinj : ∀ q < n, ∀ q' < n, ∀ k < P.size, ∀ k' < P.size, q * P.size + k = q' * P.size + k' → q = q' ∧ k = k' := by
    intro q _ q' _ k hk k' hk' h
    have e1 : (q * P.size + k) / P.size = q := by
      rw [Nat.mul_comm, Nat.mul_add_div hpos, Nat.div_eq_of_lt hk, Nat.add_zero]
    have e2 : (q' * P.size + k') / P.size = q' := by
      rw [Nat.mul_comm, Nat.mul_add_div hpos, Nat.div_eq_of_lt hk', Nat.add_zero]
    have : q = q' := by rw [← e1, ← e2, h]
    subst this
    exact ⟨rfl, by omega⟩
  refine ⟨⟨hq ▸ hT ▸ h0, ?_, ?_, ?_, ?_, ?_, ?_, ?_, ?_, ?_, ?_, ?_⟩, ?_, ?_, (h12.trans h3)⟩
  · intro q hq c hc; rw [hT] at *; exact hstep q hq c hc
  · rw [h3.lettersCount, hlc]; exact hpos
  · rw [h3.lettersCount, hlc]; exact hP
  · rw [h3.jumps, hjmp]; omega
  · rw [h3.jumps, hjmp, h3.lettersCount, hlc]; show base + 264 + T.n * _ ≤ _; rw [hT]; omega
  · rw [h3.lettersCount, hlc]; show T.n * _ ≤ _; rw [hT]; exact hlim
  · rw [h3.states, h12.states]; exact hT.symm
  · rw [h3.initial, h12.initial, h3.indexToState]
    unfold indexToState jumpAt
    rw [hjmp, hlc, hq]
    rfl
  · intro c hc
    obtain ⟨e, he, hm, e1, e2⟩ := hll c hc
    rw [hl3 c hc, e1, h3.lettersCount, hlc]
    exact e2
  · intro q hq' c hc
    have hq' : q < n := hT ▸ hq'
    obtain ⟨e, he, hm, e1, e2⟩ := hll c hc
    have hrep := hw.rep_mem e he
    obtain ⟨w, hwW, hwq, hwc⟩ := hall q hq' e he
    obtain ⟨-, b, hd, hact⟩ := hin w hwW
    have hst : s2.jumpStore w = (q * P.size + e.idx, (T.step q e.rep + 2 ^ 64 - q) % 2 ^ 64 * (P.size * 8) % 2 ^ 64, w.act) := by
      unfold jumpStore transitionIndex stateSize
      rw [hwc, hl2 e he e.rep hrep, hlc, hd, hwq, hwc]
    have hcons : ∀ v v', (q * P.size + e.idx, v) ∈ W.map s2.jumpStore → (q * P.size + e.idx, v') ∈ W.map s2.jumpStore →
        (v.1, v.2 % 2 ^ 32) = (v'.1, v'.2 % 2 ^ 32) := by
      have one : ∀ v, (q * P.size + e.idx, v) ∈ W.map s2.jumpStore →
          (v.1, v.2 % 2 ^ 32) = ((T.step q e.rep + 2 ^ 64 - q) % 2 ^ 64 * (P.size * 8) % 2 ^ 64, T.act q e.rep) := by
        intro v hv
        obtain ⟨w', hw', hv'⟩ := List.mem_map.1 hv
        obtain ⟨a', b', hd', hact'⟩ := hin w' hw'
        obtain ⟨e', he', hm', e1', e2'⟩ := hll w'.c b'
        have hi := congrArg Prod.fst hv'
        have hi : w'.src * P.size + e'.idx = q * P.size + e.idx := by
          refine Eq.trans ?_ hi
          show _ = w'.src * s2.lettersCount + s2.letter w'.c
          rw [e1', hlc]
        obtain ⟨hsrc, hidx'⟩ := hidxinj _ a' _ hq' _ e2' _ e2 hi
        have hee : e' = e := by
          have := hw.idx_nodup
          exact List.inj_on_of_nodup_map this he' he hidx'
        subst hee
        have hc2 := hcls q hq' e' he' w'.c hm'
        have hv2 := congrArg Prod.snd hv'
        have hv2 : (s2.jumpStore w').2 = v := hv2
        rw [← hv2]
        show ((w'.dst + 2 ^ 64 - w'.src) % 2 ^ 64 * s2.stateSize % 2 ^ 64, w'.act % 2 ^ 32) = _
        rw [hd', hact', hsrc, hc2.1, hc2.2]
        unfold stateSize
        rw [hlc]
      intro v v' hv hv'
      rw [one v hv, one v' hv']
    have hmemW : (q * P.size + e.idx, ((T.step q e.rep + 2 ^ 64 - q) % 2 ^ 64 * (P.size * 8) % 2 ^ 64, w.act)) ∈ W.map s2.jumpStore :=
      List.mem_map.2 ⟨w, hwW, hst⟩
    have hread := read_stores' hcons s2 _ hmemW
    have hadr : s2.indexToState q + 8 * s2.letter c = s2.jumpAt (q * P.size + e.idx) := by
      unfold indexToState jumpAt
      rw [e1, hlc]; ring
    unfold next nextTranslated
    rw [hl3 c hc, h3.indexToState, h3.indexToState, hadr, hread.1, hread.2]
    have hc2 := hcls q hq' e he c hm
    refine Prod.ext ?_ ?_
    · simp only
      rw [hc2.1]
      unfold indexToState jumpAt
      rw [hjmp, hlc]
      exact jump_arith hpos hq' (hstep q hq' _ (hmem e he _ hrep)) hlim (by omega)
    · simp only
      rw [hact, hc2.2, hwq, hwc]
  · intro q hq'
    have hq' : q < n := hT ▸ hq'
    refine Eq.trans ?_ (ht2 q hq')
    unfold tag
    rw [h3.tags]
    apply read_stores_out
    intro x hx
    right
    have := hWidx x hx
    unfold jumpAt
    omega
  · rw [h3.regexps, h12.regexps]; rfl
  · rw [h3.empty, h12.empty]; rfl

/-! ### `BuildScanner` -/

/-- The tag given to a state. -/
def fsmTag (ff df : Nat) (f : Fsm) (q : Nat) : Nat :=
  (f.tags q).getD 0 ||| (if f.isFinal q then ff else 0) ||| (if q ∈ (if df ≠ 0 then f.deadStates else ∅) then df else 0)

/-- The calls of `SetJump`. -/
def fsmJumps (remap : Nat → Nat) (f : Fsm) : List Jump :=
  (List.range f.size).flatMap fun fr => f.letters.set.flatMap fun e =>
    (elems (f.destinations fr e.rep)).map fun dest => ⟨fr, e.rep, dest, remap (f.output fr dest) % 2 ^ 32⟩

theorem compileCanonized_eq (ff df : Nat) (remap : Nat → Nat) (base : Nat) (f : Fsm) : compileCanonized ff df remap base f =
    ((init base f.size f.letters f.initial 1).setTags ((List.range f.size).map fun i => (i, fsmTag ff df f i))).setJumps (fsmJumps remap f) := by
  unfold compileCanonized buildScanner setTags setJumps fsmJumps
  simp only
  rw [← Simple.foldl_flatMap', List.foldl_map]
  simp only [← Simple.foldl_flatMap', List.foldl_map]
  rfl

/-- The state a determined automaton goes to. -/
def fsmStep (f : Fsm) (q c : Nat) : Nat := f.cdelta q ((f.letters.index c).getD 0)

/-- The table of a determined automaton: actions are the outputs between the two states. -/
def fsmTbl (ff df : Nat) (remap : Nat → Nat) (f : Fsm) : ATbl where
  n := f.size
  q0 := f.initial
  step := fsmStep f
  act := fun q c => remap (f.output q (fsmStep f q c)) % 2 ^ 32
  tag := fsmTag ff df f

theorem fsmStep_eq {f : Fsm} (h : f.Det) {q c : Nat} {e : PClass} (he : e ∈ f.letters.set) (hc : c ∈ e.members) :
    fsmStep f q c = f.firstDst q e.rep := by
  unfold fsmStep
  rw [h.wf.let_wf.index_eq he hc, Option.getD_some, Fsm.cdelta_eq h.wf he]

theorem fsmStep_lt {f : Fsm} (h : f.Det) {q c : Nat} (hq : q < f.size) (hc : IsLetter c) : fsmStep f q c < f.size :=
  (tblOf_wf h).step_lt hq hc

/-- Compiling a determined automaton. -/
theorem compileCanonized_repr {f : Fsm} {base : Nat} (ff df : Nat) (remap : Nat → Nat) (h : f.Det) (hP : f.letters.size ≤ 256) (ha : base % 8 = 0)
    (hs : base + bufSize f.size f.letters.size ≤ 2 ^ 64) (hlim : f.size * (f.letters.size * 8) ≤ 2 ^ 31) :
    Repr (compileCanonized ff df remap base f) { fsmTbl ff df remap f with tag := fun q => fsmTag ff df f q % 256 } ∧
    (compileCanonized ff df remap base f).regexpsCount = 1 ∧ (compileCanonized ff df remap base f).empty = false ∧
    Same (markup f.size f.letters.size 1 (base + MaxChar + 8 * (f.initial * f.letters.size)) base fun _ => 0)
      (compileCanonized ff df remap base f) := by
  rw [compileCanonized_eq]
  refine build_repr (T := fsmTbl ff df remap f) h.wf.let_wf h.all hP rfl rfl h.wf.init_lt ha hs hlim
    (fun q hq c hc => fsmStep_lt h hq hc) ?_ ?_ ?_
  · intro w hw
    obtain ⟨fr, hfr, hw⟩ := List.mem_flatMap.1 hw
    obtain ⟨e, he, hw⟩ := List.mem_flatMap.1 hw
    obtain ⟨d, hd, rfl⟩ := List.mem_map.1 hw
    have hfr := List.mem_range.1 hfr
    have hrep := h.wf.let_wf.rep_mem e he
    rw [h.elems_dst hfr he, List.mem_singleton] at hd
    have e1 := fsmStep_eq h (q := fr) he hrep
    refine ⟨hfr, (h.all _).1 (by rw [h.wf.let_wf.inv_of_mem he hrep]; rfl), ?_, ?_⟩
    · show d = fsmStep f fr e.rep
      rw [e1, hd]
    · show remap (f.output fr d) % 2 ^ 32 % 2 ^ 32 = remap (f.output fr (fsmStep f fr e.rep)) % 2 ^ 32
      rw [e1, hd, Nat.mod_mod]
  · intro q hq e he
    refine ⟨⟨q, e.rep, f.firstDst q e.rep, remap (f.output q (f.firstDst q e.rep)) % 2 ^ 32⟩, ?_, rfl, rfl⟩
    exact List.mem_flatMap.2 ⟨q, List.mem_range.2 hq, List.mem_flatMap.2 ⟨e, he, List.mem_map.2
      ⟨f.firstDst q e.rep, by rw [h.elems_dst hq he]; simp, rfl⟩⟩⟩
  · intro q hq e he c hc
    have e1 := fsmStep_eq h (q := q) he (h.wf.let_wf.rep_mem e he)
    have e2 := fsmStep_eq h (q := q) he hc
    have e3 : fsmStep f q c = fsmStep f q e.rep := e2.trans e1.symm
    refine ⟨e3, ?_⟩
    show remap (f.output q (fsmStep f q c)) % 2 ^ 32 = remap (f.output q (fsmStep f q e.rep)) % 2 ^ 32
    rw [e3]

end Loaded
end Pire
