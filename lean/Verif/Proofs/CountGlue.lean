import Verif.Proofs.Count
import Verif.Proofs.LoadedGlue

/-!
# Counting scanners: running and gluing
-/

namespace Pire
namespace Count
open Spec Loaded

/-! ### One counter at a time -/

/-- What concerns counter `i`: its value, the best value kept, whether it is marked. -/
def loc (s : State) (i : Nat) : Nat × Nat × Bool := (s.current i, s.total i, s.updated.testBit (16 + i))

/-- An increment of a counter. -/
def locInc (b : Bool) (x : Nat × Nat × Bool) : Nat × Nat × Bool := if b then ((x.1 + 1) % 2 ^ 32, x.2.1, true) else x

/-- A reset of a counter. -/
def locReset (b : Bool) (x : Nat × Nat × Bool) : Nat × Nat × Bool := if b && x.2.2 then (0, max x.2.1 x.1, false) else x

/-- `TakeAction` acts on each counter separately, depending on the two bits for it only. -/
structure TakeLoc (take : State → Nat → State) (step : Bool → Bool → Nat × Nat × Bool → Nat × Nat × Bool) : Prop where
  st : ∀ s a, (take s a).st = s.st
  loc : ∀ s a i, i < 16 → a < 2 ^ 32 → loc (take s a) i = step (a.testBit i) (a.testBit (16 + i)) (loc s i)
  skip : step false false = id

theorem inc_loc (s : State) (a i : Nat) (hi : i < 16) (ha : a < 2 ^ 32) :
    (if a &&& incrementMask ≠ 0 then performIncrement s a else s).st = s.st ∧
    loc (if a &&& incrementMask ≠ 0 then performIncrement s a else s) i = locInc (a.testBit i) (loc s i) := by
  split
  · rename_i hm
    have hne : a ≠ 0 := fun h => hm (by rw [h]; simp)
    unfold performIncrement
    rw [if_pos hne]
    obtain ⟨e1, e2, e3, e4⟩ := incPerform_eq Loaded.MaxReCount a s
    have hM : Loaded.MaxReCount = 16 := rfl
    have hbit : (a <<< 16 % 2 ^ 64).testBit (16 + i) = a.testBit i := by
      rw [Nat.testBit_mod_two_pow, Nat.testBit_shiftLeft, Nat.add_sub_cancel_left]
      simp; omega
    refine ⟨e1, ?_⟩
    unfold loc locInc
    simp only
    rw [e4 i, e2, e3]
    rw [hM, Nat.testBit_or, hbit]
    cases a.testBit i <;> simp [hi]
  · rename_i hm
    have hb := and_mask_eq (not_not.1 hm) hi
    rw [hb]
    exact ⟨rfl, rfl⟩

theorem reset_loc (s : State) (a i : Nat) (hi : i < 16) :
    (if a &&& resetMask ≠ 0 then performReset s a else s).st = s.st ∧
    loc (if a &&& resetMask ≠ 0 then performReset s a else s) i = locReset (a.testBit (16 + i)) (loc s i) := by
  have hbit : ((a &&& s.updated) % 2 ^ 32).testBit (16 + i) = (a.testBit (16 + i) && s.updated.testBit (16 + i)) := by
    rw [Nat.testBit_mod_two_pow, Nat.testBit_and]
    have : 16 + i < 32 := by omega
    simp [this]
  split
  · unfold performReset
    simp only
    split
    · rename_i hm
      obtain ⟨e1, e3, e4⟩ := resetPerform_eq Loaded.MaxReCount ((a &&& s.updated) % 2 ^ 32) s
      refine ⟨e1, ?_⟩
      unfold loc locReset
      simp only
      rw [(e4 i).1, (e4 i).2, hbit, e3, Nat.testBit_and, Nat.testBit_xor, hbit, Nat.testBit_two_pow_sub_one]
      have hM : Loaded.MaxReCount = 16 := rfl
      have h32 : 16 + i < 32 := by omega
      rw [hM]
      cases a.testBit (16 + i) <;> cases s.updated.testBit (16 + i) <;> simp [hi, h32]
    · rename_i hm
      have hz : (a &&& s.updated) % 2 ^ 32 = 0 := not_not.1 hm
      have hf : (a.testBit (16 + i) && s.updated.testBit (16 + i)) = false := by rw [← hbit, hz, Nat.zero_testBit]
      refine ⟨rfl, ?_⟩
      unfold loc locReset
      simp only
      rw [hf]; rfl
  · rename_i hm
    have hb := and_resetMask_eq (not_not.1 hm) hi
    rw [hb]
    exact ⟨rfl, rfl⟩

theorem takeBasic_loc : TakeLoc takeBasic fun i r x => locReset r (locInc i x) where
  st := fun s a => by
    unfold takeBasic
    simp only
    by_cases h : a &&& resetMask ≠ 0
    · have h1 := fun s => (reset_loc s a 0 (by omega)).1
      have h2 : (if a &&& incrementMask ≠ 0 then performIncrement s a else s).st = s.st := by
        split
        · unfold performIncrement
          split
          · exact (incPerform_eq Loaded.MaxReCount a s).1
          · rfl
        · rfl
      rw [h1, h2]
    · rw [if_neg h]
      split
      · unfold performIncrement
        split
        · exact (incPerform_eq Loaded.MaxReCount a s).1
        · rfl
      · rfl
  loc := fun s a i hi ha => by
    unfold takeBasic
    simp only
    rw [(reset_loc _ a i hi).2, (inc_loc s a i hi ha).2]
  skip := rfl

theorem takeAdvanced_loc : TakeLoc takeAdvanced fun i r x => locInc i (locReset r x) where
  st := fun s a => by
    unfold takeAdvanced
    simp only
    have h1 := (reset_loc s a 0 (by omega)).1
    split
    · unfold performIncrement
      split
      · rw [(incPerform_eq Loaded.MaxReCount a _).1] at *; exact h1
      · exact h1
    · exact h1
  loc := fun s a i hi ha => by
    unfold takeAdvanced
    simp only
    rw [(inc_loc _ a i hi ha).2, (reset_loc s a i hi).2]
  skip := rfl

/-! ### Running -/

section
variable {take : State → Nat → State} {step : Bool → Bool → Nat × Nat × Bool → Nat × Nat × Bool}

/-- A counter after a list of actions. -/
def locFold (step : Bool → Bool → Nat × Nat × Bool → Nat × Nat × Bool) (i : Nat) (as : List Nat) (x : Nat × Nat × Bool) : Nat × Nat × Bool :=
  as.foldl (fun x a => step (a.testBit i) (a.testBit (16 + i)) x) x

theorem foldl_loc (ht : TakeLoc take step) (as : List Nat) (ha : ∀ a ∈ as, a < 2 ^ 32) (s : State) {i : Nat} (hi : i < 16) :
    loc (as.foldl take s) i = locFold step i as (loc s i) := by
  induction as generalizing s with
  | nil => rfl
  | cons a as ih =>
    rw [List.foldl_cons, ih (fun x hx => ha x (by simp [hx])) _, ht.loc s a i hi (ha a (by simp))]
    rfl

/-- The state and the counters after a word. -/
theorem run_loc (ht : TakeLoc take step) {s : Loaded} {T : ATbl} (h : Repr s T) {w : List Nat} (hw : IsWord w) :
    ((scn take s).after (scn take s).initial w).st = s.indexToState (T.after T.q0 w) ∧
    ∀ i < 16, loc ((scn take s).after (scn take s).initial w) i = locFold step i (T.acts T.q0 w) (0, 0, false) := by
  have gen : ∀ (w : List Nat), IsWord w → ∀ (q : Nat), q < T.n → ∀ x : State, x.st = s.indexToState q →
      ((scn take s).after x w).st = s.indexToState (T.after q w) ∧ ∀ i < 16, loc ((scn take s).after x w) i = locFold step i (T.acts q w) (loc x i) := by
    intro w
    induction w with
    | nil => intro _ q hq x hx; exact ⟨hx, fun i _ => rfl⟩
    | cons c w ih =>
      intro hw q hq x hx
      have hc : IsLetter c := hw c (by simp)
      have hn := h.next q hq c hc
      have e1 : ((scn take s).step x c).st = s.indexToState (T.step q c) := by
        unfold Scn.step scn
        simp only
        rw [ht.st, hx, hn]
      have e2 : ∀ i < 16, loc ((scn take s).step x c) i = step ((T.act q c).testBit i) ((T.act q c).testBit (16 + i)) (loc x i) := by
        intro i hi
        unfold Scn.step scn
        simp only
        rw [hx, hn, ht.loc _ _ i hi (h.act_lt hq hc)]
        rfl
      obtain ⟨i1, i2⟩ := ih (fun x hx => hw x (by simp [hx])) (T.step q c) (h.step_lt q hq c hc) _ e1
      refine ⟨i1, fun i hi => ?_⟩
      have e3 : (scn take s).after x (c :: w) = (scn take s).after ((scn take s).step x c) w := rfl
      rw [e3, i2 i hi, e2 i hi]
      rfl
  obtain ⟨h1, h2⟩ := gen w hw T.q0 h.q0 (scn take s).initial h.initial
  refine ⟨h1, fun i hi => ?_⟩
  rw [h2 i hi]
  unfold loc scn initState
  simp

theorem result_loc (s : State) (i : Nat) : s.result i = max (loc s i).1 (loc s i).2.1 := rfl

/-! ### Gluing -/

/-- A counting scanner in memory: the actions concern the counters of its regexps only. -/
structure Sound (s : Loaded) (T : ATbl) : Prop where
  repr : Repr s T
  count : s.reCount ≤ 16
  bits : ∀ q < T.n, ∀ c, IsLetter c → ∀ j, (T.act q c).testBit j = true → j < s.reCount ∨ (16 ≤ j ∧ j < 16 + s.reCount)

/-- Actions being combined, pire/extra/count.cpp:903-904. -/
def combine (n x y : Nat) : Nat := x ||| y <<< n % 2 ^ 32

/-- Bits of the combined action. -/
theorem combine_bits {na nb x y : Nat} (hn : na + nb ≤ 16)
    (hx : ∀ j, x.testBit j = true → j < na ∨ (16 ≤ j ∧ j < 16 + na)) (hy : ∀ j, y.testBit j = true → j < nb ∨ (16 ≤ j ∧ j < 16 + nb)) :
    (∀ i < na, (combine na x y).testBit i = x.testBit i ∧ (combine na x y).testBit (16 + i) = x.testBit (16 + i)) ∧
    (∀ i < nb, (combine na x y).testBit (na + i) = y.testBit i ∧ (combine na x y).testBit (16 + (na + i)) = y.testBit (16 + i)) ∧
    ∀ j, (combine na x y).testBit j = true → j < na + nb ∨ (16 ≤ j ∧ j < 16 + (na + nb)) := by
  have hb : ∀ j, (combine na x y).testBit j = (x.testBit j || (decide (j < 32) && (decide (na ≤ j) && y.testBit (j - na)))) := by
    intro j
    unfold combine
    rw [Nat.testBit_or, Nat.testBit_mod_two_pow, Nat.testBit_shiftLeft]
  have hy' : ∀ j, ¬ (j < nb ∨ (16 ≤ j ∧ j < 16 + nb)) → y.testBit j = false := fun j h => by
    cases e : y.testBit j with
    | false => rfl
    | true => exact absurd (hy j e) h
  have hx' : ∀ j, ¬ (j < na ∨ (16 ≤ j ∧ j < 16 + na)) → x.testBit j = false := fun j h => by
    cases e : x.testBit j with
    | false => rfl
    | true => exact absurd (hx j e) h
  refine ⟨fun i hi => ⟨?_, ?_⟩, fun i hi => ⟨?_, ?_⟩, fun j hj => ?_⟩
  · have : ¬ na ≤ i := by omega
    rw [hb]; simp [this]
  · rw [hb, hy' _ (by omega)]; simp
  · rw [hb, hx' _ (by omega), Nat.add_sub_cancel_left]
    have : na + i < 32 := by omega
    simp [this]
  · rw [hb, hx' _ (by omega)]
    have e : 16 + (na + i) - na = 16 + i := by omega
    have h1 : 16 + (na + i) < 32 := by omega
    have h2 : na ≤ 16 + (na + i) := by omega
    rw [e]; simp [h1, h2]
  · rw [hb] at hj
    simp only [Bool.or_eq_true, Bool.and_eq_true, decide_eq_true_eq] at hj
    rcases hj with h | ⟨h1, h2, h3⟩
    · have := hx j h; omega
    · have := hy _ h3; omega

theorem locFold_zip_left {na nb : Nat} (hn : na + nb ≤ 16) {xs ys : List Nat} (hl : xs.length = ys.length)
    (hx : ∀ x ∈ xs, ∀ j, x.testBit j = true → j < na ∨ (16 ≤ j ∧ j < 16 + na)) (hy : ∀ y ∈ ys, ∀ j, y.testBit j = true → j < nb ∨ (16 ≤ j ∧ j < 16 + nb))
    (x : Nat × Nat × Bool) : (∀ i < na, locFold step i (List.zipWith (combine na) xs ys) x = locFold step i xs x) ∧
      ∀ i < nb, locFold step (na + i) (List.zipWith (combine na) xs ys) x = locFold step i ys x := by
  induction xs generalizing ys x with
  | nil =>
    cases ys with
    | nil => exact ⟨fun _ _ => rfl, fun _ _ => rfl⟩
    | cons y ys => cases hl
  | cons a xs ih =>
    cases ys with
    | nil => cases hl
    | cons b ys =>
      obtain ⟨h1, h2, -⟩ := combine_bits hn (hx a (by simp)) (hy b (by simp))
      have ih' := fun x => ih (Nat.succ.inj hl) (fun y hy' => hx y (by simp [hy'])) (fun y hy' => hy y (by simp [hy'])) x
      refine ⟨fun i hi => ?_, fun i hi => ?_⟩
      · rw [List.zipWith_cons_cons]
        unfold locFold
        rw [List.foldl_cons, List.foldl_cons, (h1 i hi).1, (h1 i hi).2]
        exact (ih' _).1 i hi
      · rw [List.zipWith_cons_cons]
        unfold locFold
        rw [List.foldl_cons, List.foldl_cons, (h2 i hi).1, (h2 i hi).2]
        exact (ih' _).2 i hi

end

/-- The limit on the number of states `Glue` uses. -/
def glueLimit (maxSize : Nat) : Nat := if maxSize ≠ 0 then maxSize else 250000

theorem glue_eq (null : Loaded) (base base' : Nat) (a b : Loaded) (maxSize : Nat) : glue null base base' a b maxSize =
    if a.reCount + b.reCount > 16 then null
    else match (glueTask a b).run (glueLimit maxSize) with
    | none => null
    | some (states, conns) => copyCtor true base' ((acceptStates base a b states).setJumps (conns.map fun x =>
        ⟨x.1, x.2.2, x.2.1, combine a.reCount (a.actionAt (states.getD x.1 (0, 0)).1 x.2.2) (b.actionAt (states.getD x.1 (0, 0)).2 x.2.2)⟩)) := by
  unfold glue
  have hM : Loaded.MaxReCount = 16 := rfl
  rw [hM]
  split
  · rfl
  · unfold glueLimit
    split
    · rename_i h; rw [h]
    · rename_i states conns h
      rw [h]
      simp only
      congr 1
      unfold setJumps
      rw [List.foldl_map]
      rfl

/-- **Gluing.** Unless the limits are exceeded, the counters of the glued scanner show what those of the two scanners show. -/
theorem glue_sound {a b null : Loaded} {Ta Tb : ATbl} {base base' maxSize : Nat} (ha : Sound a Ta) (hb : Sound b Tb)
    (hc : a.reCount + b.reCount ≤ 16) (ht : ¬ (glueTask a b).TooMany (glueLimit maxSize))
    (hP : (glueLetters a b).size ≤ 256) (hal : base % 8 = 0) (hbs : base ≤ 2 ^ 63) (hal' : base' % 8 = 0) (hbs' : base' ≤ 2 ^ 63)
    (hlim : glueLimit maxSize < 2 ^ 20) :
    ∃ T, Sound (glue null base base' a b maxSize) T ∧ (glue null base base' a b maxSize).reCount = a.reCount + b.reCount ∧
      (glue null base base' a b maxSize).empty = false ∧
      ∀ w, IsWord w → T.acts T.q0 w = List.zipWith (combine a.reCount) (Ta.acts Ta.q0 w) (Tb.acts Tb.q0 w) := by
  rw [glue_eq, if_neg (by omega)]
  obtain ⟨h1, h2⟩ := DTask.run_spec (t := glueTask a b) (glueLetters_wf a b) (glueLimit maxSize)
  cases hr : (glueTask a b).run (glueLimit maxSize) with
  | none => exact absurd (h2.1 hr) ht
  | some x =>
    obtain ⟨states, conns⟩ := x
    simp only
    have hrs := h1 _ _ hr
    have hlen := hrs.len
    have hL : states.length ≤ 2 ^ 20 := by omega
    have hb1 : states.length * (glueLetters a b).size ≤ 2 ^ 20 * 256 := Nat.mul_le_mul hL hP
    have hb2 : states.length * ((glueLetters a b).size * 8) = 8 * (states.length * (glueLetters a b).size) := by ring
    have hM : MaxChar = 264 := rfl
    obtain ⟨k1, k2, k3, k4⟩ := glue_build (base := base) (combine a.reCount) ha.repr hb.repr hrs hP hal
      (by unfold bufSize; rw [hb2, hM]; omega) (by rw [hb2]; omega)
      (act := fun x => combine a.reCount (a.actionAt (states.getD x.1 (0, 0)).1 x.2.2) (b.actionAt (states.getD x.1 (0, 0)).2 x.2.2))
      (by
        intro x hx
        obtain ⟨i, j, c⟩ := x
        obtain ⟨s, g1, -, ⟨e, he, rfl⟩, -⟩ := (hrs.conns i j c).1 hx
        have hi := (List.getElem?_eq_some_iff.1 g1).1
        have hcl := glue_letter he ((glueLetters_wf a b).rep_mem e he)
        show combine _ _ _ % 2 ^ 32 = combine _ _ _
        obtain ⟨p1, p2, p3⟩ := glue_pair ha.repr hb.repr hrs hi
        simp only
        rw [p3]
        simp only
        rw [ha.repr.actionAt p1 hcl, hb.repr.actionAt p2 hcl]
        apply Nat.mod_eq_of_lt
        have := ha.repr.act_lt p1 hcl
        unfold combine
        exact Nat.or_lt_two_pow this (Nat.mod_lt _ (by norm_num)))
    generalize (acceptStates base a b states).setJumps (conns.map fun x =>
      ⟨x.1, x.2.2, x.2.1, combine a.reCount (a.actionAt (states.getD x.1 (0, 0)).1 x.2.2) (b.actionAt (states.getD x.1 (0, 0)).2 x.2.2)⟩) = g at k1 k2 k3 k4 ⊢
    have hgo : Owned g base := k4.owned (by omega)
    have e1 := k4.states
    have e2 := k4.lettersCount
    obtain ⟨c1, c2⟩ := copyCtor_repr (own := true) (base' := base') k1 (fun _ => hgo) hal'
      (by
        rw [e1, e2]
        show base' + (MaxChar + states.length * ((glueLetters a b).size * 8) + states.length) ≤ _
        rw [hb2, hM]; omega)
    have e3 : g.reCount = a.reCount + b.reCount := by
      unfold Loaded.reCount at k2 ⊢
      rw [k3, k2]
      unfold Loaded.reCount at hc
      simp only [Bool.false_eq_true, if_false]
      omega
    refine ⟨_, ⟨c1, by rw [c2, e3]; exact hc, ?_⟩, c2.trans e3, rfl, ?_⟩
    · intro q hq c hcl j hj
      have hq' : q < states.length := hq
      rw [c2, e3]
      have hj' : ((glueTbl (combine a.reCount) a b states).act q c).testBit j = true := hj
      rw [glueTbl_act _ ha.repr hb.repr hrs hq' hcl] at hj'
      obtain ⟨p1, p2, -⟩ := glue_pair ha.repr hb.repr hrs hq'
      exact (combine_bits hc (ha.bits _ p1 c hcl) (hb.bits _ p2 c hcl)).2.2 j hj'
    · intro w hw
      obtain ⟨z1, z2⟩ := glueTbl_zero ha.repr hb.repr hrs
      have := glueTbl_acts (combine a.reCount) ha.repr hb.repr hrs z1 hw
      rw [z2] at this
      have hsame : ∀ (T : ATbl) (f : Nat → Nat) q w, ATbl.acts { T with tag := f } q w = T.acts q w := by
        intro T f q w
        induction w generalizing q with
        | nil => rfl
        | cons c w ih => unfold ATbl.acts; rw [ih]
      rw [hsame]
      exact this

/-- What the counters of a glued scanner show. -/
theorem glue_results {take : State → Nat → State} {step : Bool → Bool → Nat × Nat × Bool → Nat × Nat × Bool} (ht : TakeLoc take step)
    {a b g : Loaded} {Ta Tb T : ATbl} (ha : Sound a Ta) (hb : Sound b Tb) (hg : Repr g T) (hc : a.reCount + b.reCount ≤ 16)
    {w : List Nat} (hw : IsWord w) (hacts : T.acts T.q0 w = List.zipWith (combine a.reCount) (Ta.acts Ta.q0 w) (Tb.acts Tb.q0 w)) :
    (∀ i < a.reCount, ((scn take g).after (scn take g).initial w).result i = ((scn take a).after (scn take a).initial w).result i) ∧
    ∀ i < b.reCount, ((scn take g).after (scn take g).initial w).result (a.reCount + i) = ((scn take b).after (scn take b).initial w).result i := by
  obtain ⟨h1, h2⟩ := locFold_zip_left (step := step) hc (xs := Ta.acts Ta.q0 w) (ys := Tb.acts Tb.q0 w) (by rw [ATbl.acts_length, ATbl.acts_length])
    (fun x hx => by
      obtain ⟨q, hq, c, hcl, rfl⟩ := ATbl.acts_mem ha.repr.step_lt ha.repr.q0 hw hx
      exact ha.bits q hq c hcl)
    (fun x hx => by
      obtain ⟨q, hq, c, hcl, rfl⟩ := ATbl.acts_mem hb.repr.step_lt hb.repr.q0 hw hx
      exact hb.bits q hq c hcl) (0, 0, false)
  rw [← hacts] at h1 h2
  refine ⟨fun i hi => ?_, fun i hi => ?_⟩
  · rw [result_loc, result_loc, (run_loc ht hg hw).2 i (by omega), (run_loc ht ha.repr hw).2 i (by omega), h1 i hi]
  · rw [result_loc, result_loc, (run_loc ht hg hw).2 (a.reCount + i) (by omega), (run_loc ht hb.repr hw).2 i (by omega), h2 i hi]

end Count
end Pire
