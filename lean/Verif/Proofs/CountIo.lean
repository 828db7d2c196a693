import Verif.Proofs.CountBuilt

/-!
# Counting scanners: `Save`, `Load`, `Mmap`
-/

namespace Pire
open Spec Io
open Multi (memBytes blockMem memBytes_split length_memBytes)

namespace Loaded

variable {s : Loaded} {T : ATbl}

/-- Loading what `Save` wrote. -/
theorem load_saved {base type pad : Nat} (ht : type = 4 ∨ type = 5) (h : Repr s T) (hr : s.regexpsCount < 2 ^ 32) (ha : base % 8 = 0)
    (hs : base + bufSize s.statesCount s.lettersCount ≤ 2 ^ 64) (rest : Bytes) :
    ∃ s', load base (s.save type pad ++ rest) = some ((s', type), rest) ∧ Image s s' ∧ (∀ T, Repr s T → Repr s' T) ∧ Owned s' base := by
  obtain ⟨k1, k2, k3, k4⟩ := h.nl
  have hi := loaded_image h hs
  have hl := load_save (base := base) (pad := pad) ht h hr rest
  have ho := Count.owned_markup s.statesCount s.lettersCount s.regexpsCount ((s.savedInitial + base + MaxChar) % 2 ^ 64) base
    (blockMem base (memBytes s.mem s.letters MaxChar ++ memBytes s.mem s.jumps (8 * (s.statesCount * s.lettersCount)) ++
        memBytes s.mem s.tags s.statesCount)) (by omega)
  generalize markup s.statesCount s.lettersCount s.regexpsCount ((s.savedInitial + base + MaxChar) % 2 ^ 64) base
    (blockMem base (memBytes s.mem s.letters MaxChar ++ memBytes s.mem s.jumps (8 * (s.statesCount * s.lettersCount)) ++
        memBytes s.mem s.tags s.statesCount)) = s' at hi hl ho
  have hM : MaxChar = 264 := rfl
  refine ⟨s', hl, hi, fun T hT => hi.repr hT ?_ ?_, ho⟩
  · rw [ho.jumps]; omega
  · rw [ho.jumps]
    unfold bufSize at hs
    have : s.statesCount * (s.lettersCount * 8) = 8 * (s.statesCount * s.lettersCount) := by ring
    omega

theorem tail_up (x n : Nat) (h : x % 8 = 0) : Scn.alignUp (x + n) 8 = x + (n + tail n) := by
  unfold tail Scn.alignUp
  omega

/-- Mapping what `Save` wrote. -/
theorem mmap_saved {mem : Mem} {ptr size type pad : Nat} (ht : type = 4 ∨ type = 5) (h : Repr s T) (hr : s.regexpsCount < 2 ^ 32) (ha : ptr % 8 = 0)
    (hs : ptr + 8 * size + 16 < 2 ^ 64) (hlen : (s.save type pad).length ≤ size)
    (hm : memBytes mem ptr (s.save type pad).length = s.save type pad) :
    ∃ s' k, mmap mem ptr size = .ok s' type (ptr + (s.save type pad).length) k ∧ Image s s' ∧ (∀ T, Repr s T → Repr s' T) ∧ s'.empty = false := by
  obtain ⟨k1, k2, k3, k4⟩ := h.nl
  have hL := length_save type pad s
  rw [k4] at hL
  have hsp : ptr + 312 + 8 * (s.statesCount * s.lettersCount) ≤ 2 ^ 64 := by omega
  obtain ⟨m1, m2, m3, m4⟩ := saved_in_memory ht h hr ha hsp hm
  have hst := m2.states
  refine ⟨mapped mem ptr, size - (312 + 8 * (s.statesCount * s.lettersCount) + s.statesCount), ?_, m2, fun T hT => m2.repr hT ?_ hsp, rfl⟩
  · rw [mmap_eq mem ha hs, m1, m3, m4, hst]
    have hv : ¬ (size < 24 ∨ (Header.mk' type localsLen).valid 4 localsLen = false) := by
      rw [header_valid ht]
      rintro (h | h)
      · omega
      · cases h
    have htail : s.statesCount % 8 ≠ 0 → 0 < tail s.statesCount := by intro h; unfold tail Scn.alignUp; omega
    rw [if_neg hv, if_neg (by omega), if_neg (by
      rintro (h | ⟨h1, h2⟩)
      · omega
      · have := htail h1
        omega)]
    have ht' : (mapped mem ptr).tags = ptr + 312 + 8 * (s.statesCount * s.lettersCount) := by
      show Scn.alignUp (ptr + 312 + 8 * mapCount mem ptr + mapOld mem ptr) 8 = _
      rw [m3, m4]
      unfold Scn.alignUp
      omega
    rw [ht', tail_up _ _ (by omega), hL, Nat.add_zero]
    have e : ptr + 312 + 8 * (s.statesCount * s.lettersCount) + (s.statesCount + tail s.statesCount) =
      ptr + (312 + 8 * (s.statesCount * s.lettersCount) + (s.statesCount + tail s.statesCount)) := by omega
    rw [e]
    rfl
  · show (ptr + 312) % 8 = 0
    omega

end Loaded

namespace Count
open Loaded

theorem reCount_image {s s' : Loaded} (h : Image s s') (he : s.empty = false) (he' : s'.empty = false) : s'.reCount = s.reCount := by
  unfold Loaded.reCount
  rw [he, he', h.regexps]

theorem Facts.moved {g : Bool → Bool → List Op} {leafOps : Nat → List Op} {own own' : Bool} {s s' : Loaded} {Ms : List Machine} (h : Facts g leafOps own s Ms)
    {base : Nat} (hR : ∀ T, Repr s T → Repr s' T) (hre : s'.reCount = s.reCount) (ho : own' = true → Owned s' base) : Facts g leafOps own' s' Ms := by
  obtain ⟨T, b, h1, -, h3, h4⟩ := h
  exact ⟨T, base, ⟨hR T h1.repr, by rw [hre]; exact h1.count, by rw [hre]; exact h1.bits⟩, ho, hre.trans h3, h4⟩

theorem Sound.regexps {s : Loaded} {T : ATbl} (h : Sound s T) (he : s.empty = false) : s.regexpsCount < 2 ^ 32 := by
  have := h.count
  unfold Loaded.reCount at this
  rw [he, if_neg Bool.false_ne_true] at this
  omega

theorem Facts.load {g : Bool → Bool → List Op} {leafOps : Nat → List Op} {own : Bool} {s : Loaded} {Ms : List Machine} (h : Facts g leafOps own s Ms)
    (he : s.empty = false) {base pad : Nat} (ha : base % 8 = 0) (hs : base + bufSize s.statesCount s.lettersCount ≤ 2 ^ 64) (rest : Bytes) :
    ∃ s', Loaded.load base (s.save 4 pad ++ rest) = some ((s', 4), rest) ∧ Facts g leafOps true s' Ms := by
  obtain ⟨T, b, h1, -⟩ := id h
  obtain ⟨s', l1, l2, l3, l4⟩ := load_saved (pad := pad) (.inl rfl) h1.repr (h1.regexps he) ha hs rest
  exact ⟨s', l1, h.moved l3 (reCount_image l2 he l4.nonempty) fun _ => l4⟩

theorem Facts.map {g : Bool → Bool → List Op} {leafOps : Nat → List Op} {own : Bool} {s : Loaded} {Ms : List Machine} (h : Facts g leafOps own s Ms)
    (he : s.empty = false) {mem : Mem} {ptr size pad : Nat} (ha : ptr % 8 = 0) (hs : ptr + 8 * size + 16 < 2 ^ 64) (hlen : (s.save 4 pad).length ≤ size)
    (hm : memBytes mem ptr (s.save 4 pad).length = s.save 4 pad) :
    ∃ s' k, Loaded.mmap mem ptr size = .ok s' 4 (ptr + (s.save 4 pad).length) k ∧ Facts g leafOps false s' Ms := by
  obtain ⟨T, b, h1, -⟩ := id h
  obtain ⟨s', k, l1, l2, l3, l4⟩ := mmap_saved (.inl rfl) h1.repr (h1.regexps he) ha hs hlen hm
  exact ⟨s', k, l1, h.moved (base := 0) l3 (reCount_image l2 he l4) (fun h => by cases h)⟩

/-! ### The array of actions -/

theorem length_words (l : List Nat) : (l.flatMap (le 4)).length = 4 * l.length := by
  induction l with
  | nil => rfl
  | cons x l ih => rw [List.flatMap_cons, List.length_append, length_le, ih, List.length_cons]; ring

theorem words_le (l : List Nat) (h : ∀ x ∈ l, x < 2 ^ 32) : words l.length (l.flatMap (le 4)) = l := by
  induction l with
  | nil => rfl
  | cons x l ih =>
    rw [List.flatMap_cons, List.length_cons]
    unfold words
    rw [List.take_left' (length_le _ _), List.drop_left' (length_le _ _), num_le4 _ (h x (by simp)), ih fun y hy => h y (by simp [hy])]

/-- The bytes `Save` writes after the table. -/
def actionBytes (s : NoLimit) : Bytes := ((s.actions.getD [0]).flatMap (le 4))

theorem nl_save {s : NoLimit} (h : ActsHead s) (pad : Nat) : s.save pad = some (s.base.save 5 pad ++ actionBytes s) := by
  unfold NoLimit.save actionBytes
  cases hl : s.actions with
  | none => simp
  | some l =>
    obtain ⟨h1, -, -⟩ := h l hl
    simp only [Option.getD_some]
    unfold readIds
    rw [if_pos (by omega), h1, List.drop_zero, List.take_length, Option.map_some]

theorem nl_load {s self : NoLimit} {T : ATbl} (h : ActsHead s) (h32 : Ids32 s) (hR : Repr s.base T) (hr : s.base.regexpsCount < 2 ^ 32) {base pad : Nat}
    (ha : base % 8 = 0) (hs : base + bufSize s.base.statesCount s.base.lettersCount ≤ 2 ^ 64) (rest : Bytes) :
    ∃ b, self.load base (s.base.save 5 pad ++ actionBytes s ++ rest) = some ({ self with base := b, actions := s.actions }, rest) ∧
      Image s.base b ∧ (∀ T, Repr s.base T → Repr b T) ∧ Owned b base := by
  obtain ⟨b, l1, l2, l3, l4⟩ := load_saved (pad := pad) (.inr rfl) hR hr ha hs (actionBytes s ++ rest)
  refine ⟨b, ?_, l2, l3, l4⟩
  rw [List.append_assoc]
  unfold NoLimit.load
  rw [l1, Option.bind_some]
  simp only [if_true]
  unfold actionBytes
  cases hl : s.actions with
  | none =>
    simp only [Option.getD_none, List.flatMap_cons, List.flatMap_nil, List.append_nil]
    rw [take_append (length_le _ _), Option.bind_some]
    simp only
    rw [num_le4 _ (by norm_num), if_pos rfl]
  | some l =>
    obtain ⟨h1, h2, h3⟩ := h l hl
    obtain ⟨x, xs, rfl⟩ := List.exists_cons_of_length_pos h3
    rw [List.headD_cons] at h1
    have hx : ∀ y ∈ x :: xs, y < 2 ^ 32 := h32 _ hl
    simp only [Option.getD_some, List.flatMap_cons, List.append_assoc]
    rw [take_append (length_le _ _), Option.bind_some]
    simp only
    rw [num_le4 _ (hx x (by simp)), if_neg (by rw [h1]; simp), take_append (n := 4 * (x - 1)) (by rw [length_words, h1]; simp), Option.bind_some]
    simp only
    rw [show x - 1 = xs.length by rw [h1]; simp, words_le xs fun y hy => hx y (by simp [hy])]

theorem nl_mmap {s : NoLimit} {T : ATbl} (h : ActsHead s) (h32 : Ids32 s) (hR : Repr s.base T) (hr : s.base.regexpsCount < 2 ^ 32) {mem : Mem} {ptr size pad : Nat}
    (ha : ptr % 8 = 0) (hs : ptr + 8 * size + 16 < 2 ^ 64) (hlen : (s.base.save 5 pad ++ actionBytes s).length ≤ size)
    (hm : memBytes mem ptr (s.base.save 5 pad ++ actionBytes s).length = s.base.save 5 pad ++ actionBytes s) :
    ∃ b, NoLimit.mmap mem ptr size = .ok { base := b, actions := s.actions, compat := false } (ptr + (s.base.save 5 pad ++ actionBytes s).length) ∧
      Image s.base b ∧ (∀ T, Repr s.base T → Repr b T) ∧ b.empty = false := by
  obtain ⟨m1, m2⟩ := memBytes_split hm
  rw [List.length_append] at hlen
  have hab : (actionBytes s).length = 4 * (s.actions.getD [0]).length := length_words _
  have hpos : 0 < (s.actions.getD [0]).length := by
    cases hl : s.actions with
    | none => simp
    | some l => exact (h l hl).2.2
  obtain ⟨b, k, l1, l2, l3, l4⟩ := mmap_saved (.inr rfl) hR hr ha hs (by omega) m1
  refine ⟨b, ?_, l2, l3, l4⟩
  unfold NoLimit.mmap
  rw [l1]
  simp only [if_true]
  rw [if_neg (by omega), List.length_append, ← Nat.add_assoc]
  generalize ptr + (s.base.save 5 pad).length = p at m2
  cases hl : s.actions with
  | none =>
    unfold actionBytes at m2
    rw [hl] at m2
    simp only [Option.getD_none, List.flatMap_cons, List.flatMap_nil, List.append_nil, length_le] at m2
    rw [m2, num_le4 _ (by norm_num), if_pos rfl, hab, hl]
    rfl
  | some l =>
    obtain ⟨h1, h2, h3⟩ := h l hl
    have hx : ∀ y ∈ l, y < 2 ^ 32 := h32 _ hl
    rw [hl, Option.getD_some] at hab
    unfold actionBytes at m2
    rw [hl, Option.getD_some, length_words] at m2
    have hn : num (memBytes mem p 4) = l.length := by
      obtain ⟨x, xs, rfl⟩ := List.exists_cons_of_length_pos h3
      rw [List.headD_cons] at h1
      rw [← h1]
      rw [List.flatMap_cons] at m2
      have hlen2 : 4 * (x :: xs).length = (le 4 x ++ xs.flatMap (le 4)).length := by rw [List.length_append, length_le, length_words, List.length_cons]; ring
      rw [hlen2] at m2
      have := (memBytes_split m2).1
      rw [length_le] at this
      rw [this, num_le4 _ (hx x (by simp))]
    rw [hn, if_neg (by omega), m2, words_le l hx, hab]

theorem FactsNL.regexps {own : Bool} {s : NoLimit} {Ms : List Machine} (h : FactsNL own s Ms) (he : s.base.empty = false) : s.base.regexpsCount < 2 ^ 32 := by
  obtain ⟨T, D, _, -, -, ⟨-, h5⟩, h3, -⟩ := h
  unfold Loaded.reCount at h3
  rw [he, if_neg Bool.false_ne_true] at h3
  omega

theorem FactsNL.load {own : Bool} {s self : NoLimit} {Ms : List Machine} (h : FactsNL own s Ms) (he : s.base.empty = false) (hc : self.compat = false) {base : Nat}
    (ha : base % 8 = 0) (hs : base + bufSize s.base.statesCount s.base.lettersCount ≤ 2 ^ 64) (rest : Bytes) (pad : Nat) :
    ∃ bytes s', s.save pad = some bytes ∧ self.load base (bytes ++ rest) = some (s', rest) ∧ s'.compat = false ∧ FactsNL true s' Ms := by
  obtain ⟨T, D, _, h1, -, ⟨h5, -⟩, -⟩ := id h
  obtain ⟨b, l1, l2, l3, l4⟩ := nl_load (self := self) (pad := pad) h5 h1.ids h1.repr (h.regexps he) ha hs rest
  refine ⟨_, _, nl_save h5 pad, l1, hc, ?_⟩
  have e : ({ self with base := b, actions := s.actions } : NoLimit) = { s with base := b } := by
    have := h1.compat
    cases self; cases s
    simp_all
  rw [e]
  exact h.rebase l3 (reCount_image l2 he l4.nonempty) fun _ => l4

theorem FactsNL.map {own : Bool} {s : NoLimit} {Ms : List Machine} (h : FactsNL own s Ms) (he : s.base.empty = false) {mem : Mem} {ptr size pad : Nat} {bytes : Bytes}
    (hb : s.save pad = some bytes) (ha : ptr % 8 = 0) (hs : ptr + 8 * size + 16 < 2 ^ 64) (hlen : bytes.length ≤ size) (hm : memBytes mem ptr bytes.length = bytes) :
    ∃ s', NoLimit.mmap mem ptr size = .ok s' (ptr + bytes.length) ∧ FactsNL false s' Ms := by
  obtain ⟨T, D, _, h1, -, ⟨h5, -⟩, -⟩ := id h
  rw [nl_save h5] at hb
  cases hb
  obtain ⟨b, l1, l2, l3, l4⟩ := nl_mmap h5 h1.ids h1.repr (h.regexps he) ha hs hlen hm
  refine ⟨_, l1, ?_⟩
  have e : ({ base := b, actions := s.actions, compat := false } : NoLimit) = { s with base := b } := by
    have := h1.compat
    cases s
    simp_all
  rw [e]
  exact h.rebase (base := 0) l3 (reCount_image l2 he l4) (fun h => by cases h)

/-! ### The compatibility mode -/

/-- See `Inv`; the mask is not used. -/
def ModeInv (s : State) (O : Nat → List Op) : Prop := ∀ i < 16, s.current i = (ops (O i)).1 ∧ max (s.current i) (s.total i) = (ops (O i)).2

theorem ModeInv.reset {s : State} {O : Nat → List Op} (h : ModeInv s O) (a : Nat) :
    ModeInv (if a &&& resetMask ≠ 0 then resetPerform Loaded.MaxReCount a s else s) (fun i => O i ++ if a.testBit (16 + i) then [.reset] else []) := by
  intro i hi
  obtain ⟨h1, h2⟩ := h i hi
  split
  · obtain ⟨e1, e3, e4⟩ := resetPerform_eq Loaded.MaxReCount a s
    rw [(e4 i).1, (e4 i).2]
    have hM : Loaded.MaxReCount = 16 := rfl
    rw [hM]
    cases hb : a.testBit (16 + i) with
    | false =>
      simp only [hb, Bool.false_eq_true, and_false, if_false, List.append_nil]
      exact ⟨h1, h2⟩
    | true =>
      simp only [hb, hi, and_self, if_true]
      rw [ops_snoc]
      refine ⟨rfl, ?_⟩
      show max 0 (max (s.total i) (s.current i)) = (ops (O i)).2
      omega
  · rename_i hm
    have hb := and_resetMask_eq (not_not.1 hm) hi
    simp only [hb, Bool.false_eq_true, if_false, List.append_nil]
    exact ⟨h1, h2⟩

theorem ModeInv.increment {s : State} {O : Nat → List Op} (h : ModeInv s O) (a : Nat) (hlen : ∀ i < 16, (O i).length + 1 < 2 ^ 32) :
    ModeInv (if a &&& incrementMask ≠ 0 then incPerform Loaded.MaxReCount a s else s) (fun i => O i ++ if a.testBit i then [.inc] else []) := by
  intro i hi
  obtain ⟨h1, h2⟩ := h i hi
  split
  · obtain ⟨e1, e2, e3, e4⟩ := incPerform_eq Loaded.MaxReCount a s
    have hM : Loaded.MaxReCount = 16 := rfl
    rw [e4 i, e2]
    rw [hM]
    have hl : (ops (O i)).1 + 1 < 2 ^ 32 := by
      have := ops_le (O i); have := ops_len (O i); have := hlen i hi; omega
    cases hb : a.testBit i with
    | false =>
      simp only [hb, Bool.false_eq_true, and_false, if_false, List.append_nil]
      exact ⟨h1, h2⟩
    | true =>
      simp only [hb, hi, and_self, if_true]
      rw [ops_snoc, h1, Nat.mod_eq_of_lt hl]
      refine ⟨rfl, ?_⟩
      show max ((ops (O i)).1 + 1) (s.total i) = max (ops (O i)).2 ((ops (O i)).1 + 1)
      have := ops_le (O i)
      omega
  · rename_i hm
    have hb := and_mask_eq (not_not.1 hm) hi
    simp only [hb, Bool.false_eq_true, if_false, List.append_nil]
    exact ⟨h1, h2⟩

theorem take_compat {s : NoLimit} (hc : s.compat = true) {a : Nat} (hb : ∀ j, a.testBit j = true → j < s.base.reCount ∨ (16 ≤ j ∧ j < 16 + s.base.reCount))
    (hr : s.base.reCount ≤ 16) {st : State} {O : Nat → List Op} (h : ModeInv st O) (hlen : ∀ i < 16, (O i).length + 2 < 2 ^ 32) :
    ∃ st', s.take st a = some st' ∧ st'.st = st.st ∧ ModeInv st' fun i => O i ++ opsAdvanced i a := by
  unfold NoLimit.take
  by_cases h0 : a = 0
  · rw [if_pos h0]
    refine ⟨st, rfl, rfl, fun i hi => ?_⟩
    subst h0
    simpa [opsAdvanced] using h i hi
  rw [if_neg h0, if_pos hc, if_pos (by
    intro i hi hor
    have hM : Loaded.MaxReCount = 16 := rfl
    rw [hM] at hi hor
    rcases hor with hor | hor
    · have := hb _ hor; omega
    · have := hb _ hor; omega)]
  have k1 := h.reset a
  have s1 : (if a &&& resetMask ≠ 0 then resetPerform Loaded.MaxReCount a st else st).st = st.st := by
    split
    · exact (resetPerform_eq _ _ _).1
    · rfl
  refine ⟨_, rfl, ?_, ?_⟩
  · split
    · rw [(incPerform_eq _ _ _).1]; exact s1
    · exact s1
  · have k2 := k1.increment a (fun i hi => by
      have := hlen i hi
      have e : (if a.testBit (16 + i) = true then [Op.reset] else []).length ≤ 1 := by split <;> simp
      rw [List.length_append]
      omega)
    intro i hi
    have := k2 i hi
    simp only [List.append_assoc] at this
    exact this

theorem run_compat {s : NoLimit} {T : ATbl} (h : Sound s.base T) (hc : s.compat = true) {w : List Nat} (hw : IsWord w) (hl : 2 * w.length < 2 ^ 32) :
    ∃ st, (scnNoLimit s).after (scnNoLimit s).initial w = some st ∧ ModeInv st fun i => (T.acts T.q0 w).flatMap (opsAdvanced i) := by
  have gen : ∀ (w : List Nat), IsWord w → ∀ (q : Nat), q < T.n → ∀ (x : State) (O : Nat → List Op), x.st = s.base.indexToState q → ModeInv x O →
      (∀ i < 16, (O i).length + 2 * w.length < 2 ^ 32) →
      ∃ st, (scnNoLimit s).after (some x) w = some st ∧ ModeInv st fun i => O i ++ (T.acts q w).flatMap (opsAdvanced i) := by
    intro w
    induction w with
    | nil =>
      intro _ q hq x O hx hO _
      refine ⟨x, rfl, fun i hi => ?_⟩
      show _ = (ops (O i ++ [])).1 ∧ _ = (ops (O i ++ [])).2
      rw [List.append_nil]
      exact hO i hi
    | cons c w ih =>
      intro hw q hq x O hx hO hlen
      have hc' : IsLetter c := hw c (by simp)
      have hn := h.repr.next q hq c hc'
      obtain ⟨st', k1, k2, k3⟩ := take_compat hc (h.bits q hq c hc') h.count (st := { x with st := s.base.indexToState (T.step q c) }) (O := O) hO
        (fun i hi => by have := hlen i hi; rw [List.length_cons] at this; omega)
      have e1 : (scnNoLimit s).step (some x) c = some st' := by
        unfold Scn.step scnNoLimit
        simp only [Option.map_some, Option.getD_some, Option.bind_some]
        rw [hx, hn]
        exact k1
      obtain ⟨st, j1, j2⟩ := ih (fun x hx => hw x (by simp [hx])) (T.step q c) (h.repr.step_lt q hq c hc') st' _ k2 k3 (fun i hi => by
        have := hlen i hi
        have := opsAdvanced_len i (T.act q c)
        rw [List.length_cons] at *
        rw [List.length_append]
        omega)
      refine ⟨st, ?_, fun i hi => ?_⟩
      · show (scnNoLimit s).after ((scnNoLimit s).step (some x) c) w = _
        rw [e1]; exact j1
      · have := j2 i hi
        simp only [List.append_assoc] at this
        exact this
  obtain ⟨st, k1, k2⟩ := gen w hw T.q0 h.repr.q0 (initState s.base.initial) (fun _ => []) h.repr.initial (fun _ _ => ⟨rfl, rfl⟩) (fun i _ => by simpa using hl)
  exact ⟨st, k1, fun i hi => by simpa using k2 i hi⟩

end Count
end Pire
