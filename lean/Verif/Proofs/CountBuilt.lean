import Verif.Proofs.CountLeaf
import Verif.Proofs.NullFsm
import Verif.Proofs.LoadedIo

/-!
# Counting scanners built from tables, copied and glued: what the counters show
-/

namespace Pire

open Spec

/-- The machine a determined automaton with outputs is. -/
def Fsm.machine (f : Fsm) : Machine where
  n := f.size
  q0 := f.initial
  step := fun q c => f.firstDst q (f.letters.representative c)
  out := fun q c => f.output q (f.firstDst q (f.letters.representative c))

namespace Count
open Spec Loaded

/-- Results are those of the sequence of operations. -/
theorem run_result {take : State → Nat → State} {step : Bool → Bool → Nat × Nat × Bool → Nat × Nat × Bool} {ops : Nat → Nat → List Op}
    (ht : TakeLoc take step) (hinv : ∀ as : List Nat, (∀ a ∈ as, a < 2 ^ 32) → 2 * as.length < 2 ^ 32 → ∀ st,
      Inv (as.foldl take (initState st)) fun i => as.flatMap (ops i))
    {s : Loaded} {T : ATbl} (h : Repr s T) {w : List Nat} (hw : IsWord w) (hl : 2 * w.length < 2 ^ 32) {i : Nat} (hi : i < 16) :
    MaxRun ((T.acts T.q0 w).flatMap (ops i)) (((scn take s).after (scn take s).initial w).result i) := by
  have h32 : ∀ a ∈ T.acts T.q0 w, a < 2 ^ 32 := by
    intro a ha
    obtain ⟨q, hq, c, hc, rfl⟩ := ATbl.acts_mem h.step_lt h.q0 hw ha
    exact h.act_lt hq hc
  have := (hinv (T.acts T.q0 w) h32 (by rw [ATbl.acts_length]; exact hl) 0).result hi
  rw [result_loc] at this ⊢
  rw [(run_loc ht h hw).2 i hi]
  rw [foldl_loc ht _ h32 _ hi] at this
  have e : loc (initState 0) i = (0, 0, false) := by unfold loc initState; simp
  rw [e] at this
  exact this

theorem flatMap_zip {na nb : Nat} (hn : na + nb ≤ 16) (g : Bool → Bool → List Op) {xs ys : List Nat} (hl : xs.length = ys.length)
    (hx : ∀ x ∈ xs, ∀ j, x.testBit j = true → j < na ∨ (16 ≤ j ∧ j < 16 + na)) (hy : ∀ y ∈ ys, ∀ j, y.testBit j = true → j < nb ∨ (16 ≤ j ∧ j < 16 + nb)) :
    (∀ i < na, (List.zipWith (combine na) xs ys).flatMap (fun a => g (a.testBit i) (a.testBit (16 + i))) = xs.flatMap fun a => g (a.testBit i) (a.testBit (16 + i))) ∧
      ∀ i < nb, (List.zipWith (combine na) xs ys).flatMap (fun a => g (a.testBit (na + i)) (a.testBit (16 + (na + i)))) =
        ys.flatMap fun a => g (a.testBit i) (a.testBit (16 + i)) := by
  induction xs generalizing ys with
  | nil =>
    cases ys with
    | nil => exact ⟨fun _ _ => rfl, fun _ _ => rfl⟩
    | cons y ys => cases hl
  | cons a xs ih =>
    cases ys with
    | nil => cases hl
    | cons b ys =>
      obtain ⟨h1, h2, -⟩ := combine_bits hn (hx a (by simp)) (hy b (by simp))
      obtain ⟨i1, i2⟩ := ih (Nat.succ.inj hl) (fun y hy' => hx y (by simp [hy'])) (fun y hy' => hy y (by simp [hy']))
      refine ⟨fun i hi => ?_, fun i hi => ?_⟩
      · rw [List.zipWith_cons_cons, List.flatMap_cons, List.flatMap_cons, (h1 i hi).1, (h1 i hi).2, i1 i hi]
      · rw [List.zipWith_cons_cons, List.flatMap_cons, List.flatMap_cons, (h2 i hi).1, (h2 i hi).2, i2 i hi]

theorem owned_markup (n l r i base : Nat) (mem : Mem) (h : n * l < 2 ^ 32) : Owned (markup n l r i base mem) base :=
  Same.owned (mem := mem) (i := i) (r := r) (n := n) (l := l) ⟨rfl, rfl, rfl, rfl, rfl, rfl, rfl, rfl⟩ h

theorem owned_copy' {s : Loaded} {base' : Nat} (h : s.statesCount * s.lettersCount < 2 ^ 32) : Owned (copyCtor true base' s) base' := by
  unfold copyCtor
  rw [if_pos rfl]
  exact owned_markup _ _ _ _ _ _ h

theorem copy_counts (s : Loaded) (base' : Nat) : (copyCtor true base' s).statesCount = s.statesCount ∧ (copyCtor true base' s).lettersCount = s.lettersCount := by
  unfold copyCtor
  rw [if_pos rfl]
  obtain ⟨f1, f2, -⟩ := markup_fields s.statesCount s.lettersCount s.regexpsCount
    ((base' + MaxChar + (s.initial + 2 ^ 64 - s.jumps)) % 2 ^ 64) base'
    (fun x => if base' ≤ x ∧ x < base' + bufSize s.statesCount s.lettersCount then s.mem (s.letters + (x - base')) else 0)
  exact ⟨f1, f2⟩

theorem owned_copy {s : Loaded} {T : ATbl} {base' : Nat} (h : Repr s T) : Owned (copyCtor true base' s) base' := by
  have hlim := h.limit
  have hst := h.states
  have hnl : T.n * (s.lettersCount * 8) = 8 * (T.n * s.lettersCount) := by ring
  exact owned_copy' (by rw [hst]; omega)

theorem bit_one (j : Nat) (h : Nat.testBit 1 j = true) : j = 0 := by
  have e : (1 : Nat) = 2 ^ 0 := rfl
  rw [e, Nat.testBit_two_pow] at h
  simp at h
  exact h.symm

/-- What is known of a scanner made of the machines `Ms`; `own` = it owns its memory. -/
def Facts (g : Bool → Bool → List Op) (leafOps : Nat → List Op) (own : Bool) (s : Loaded) (Ms : List Machine) : Prop :=
  ∃ T base, Sound s T ∧ (own = true → Owned s base) ∧ s.reCount = Ms.length ∧ ∀ w, IsWord w → ∀ i M, Ms[i]? = some M →
    (T.acts T.q0 w).flatMap (fun a => g (a.testBit i) (a.testBit (16 + i))) = (M.outs M.q0 w).flatMap leafOps

theorem Facts.copy {g : Bool → Bool → List Op} {leafOps : Nat → List Op} {own : Bool} {s : Loaded} {Ms : List Machine} (h : Facts g leafOps own s Ms)
    {base' : Nat} (ha : base' % 8 = 0) (hs : base' + bufSize s.statesCount s.lettersCount ≤ 2 ^ 64) : Facts g leafOps own (copyCtor own base' s) Ms := by
  cases own with
  | false => exact h
  | true =>
    obtain ⟨T, base, h1, h2, h3, h4⟩ := h
    obtain ⟨c1, c2⟩ := copyCtor_repr (own := true) h1.repr (fun _ => h2 rfl) ha hs
    exact ⟨T, base', ⟨c1, by rw [c2]; exact h1.count, by rw [c2]; exact h1.bits⟩, fun _ => owned_copy h1.repr, by rw [c2]; exact h3, h4⟩

theorem glue_empty {null : Loaded} {base base' : Nat} {a b : Loaded} {maxSize : Nat} (hn : null.empty = true)
    (he : (glue null base base' a b maxSize).empty = false) : a.reCount + b.reCount ≤ 16 ∧ ¬ (glueTask a b).TooMany (glueLimit maxSize) := by
  rw [glue_eq] at he
  by_cases h : a.reCount + b.reCount > 16
  · rw [if_pos h, hn] at he; cases he
  · refine ⟨by omega, fun ht => ?_⟩
    rw [if_neg h] at he
    have := (DTask.run_spec (t := glueTask a b) (glueLetters_wf a b) (glueLimit maxSize)).2.2 ht
    rw [this] at he
    simp only at he
    rw [hn] at he; cases he

theorem Facts.glue {g : Bool → Bool → List Op} {leafOps : Nat → List Op} {oa ob : Bool} {a b null : Loaded} {Ms Ns : List Machine} (ha : Facts g leafOps oa a Ms)
    (hb : Facts g leafOps ob b Ns) {base base' maxSize : Nat} (hn : null.empty = true) (he : (glue null base base' a b maxSize).empty = false)
    (hP : (glueLetters a b).size ≤ 256) (hal : base % 8 = 0) (hbs : base ≤ 2 ^ 63) (hal' : base' % 8 = 0) (hbs' : base' ≤ 2 ^ 63)
    (hlim : glueLimit maxSize < 2 ^ 20) : Facts g leafOps true (Count.glue null base base' a b maxSize) (Ms ++ Ns) := by
  obtain ⟨Ta, ba, a1, -, a3, a4⟩ := ha
  obtain ⟨Tb, bb, b1, -, b3, b4⟩ := hb
  obtain ⟨hc, ht⟩ := glue_empty hn he
  obtain ⟨T, t1, t2, -, t4⟩ := glue_sound (null := null) a1 b1 hc ht hP hal hbs hal' hbs' hlim
  refine ⟨T, base', t1, ?_, by rw [t2, a3, b3, List.length_append], ?_⟩
  · intro _
    have hlim := t1.repr.limit
    have hst := t1.repr.states
    have hnl : T.n * ((Count.glue null base base' a b maxSize).lettersCount * 8) = 8 * (T.n * (Count.glue null base base' a b maxSize).lettersCount) := by ring
    rw [hnl] at hlim
    have hmul : (Count.glue null base base' a b maxSize).statesCount * (Count.glue null base base' a b maxSize).lettersCount < 2 ^ 32 := by
      rw [hst]; omega
    rw [glue_eq, if_neg (by omega)] at hmul ⊢
    cases hr : (glueTask a b).run (glueLimit maxSize) with
    | none => exact absurd ((DTask.run_spec (t := glueTask a b) (glueLetters_wf a b) (glueLimit maxSize)).2.1 hr) ht
    | some x =>
      obtain ⟨states, conns⟩ := x
      rw [hr] at hmul
      simp only at hmul ⊢
      generalize (acceptStates base a b states).setJumps _ = q at hmul ⊢
      rw [(copy_counts q base').1, (copy_counts q base').2] at hmul
      exact owned_copy' hmul
  · intro w hw i M hM
    rw [t4 w hw]
    have hz := flatMap_zip (na := a.reCount) (nb := b.reCount) hc g (xs := Ta.acts Ta.q0 w) (ys := Tb.acts Tb.q0 w)
      (by rw [ATbl.acts_length, ATbl.acts_length])
      (fun x hx => by
        obtain ⟨q, hq, c, hcl, rfl⟩ := ATbl.acts_mem a1.repr.step_lt a1.repr.q0 hw hx
        exact a1.bits q hq c hcl)
      (fun x hx => by
        obtain ⟨q, hq, c, hcl, rfl⟩ := ATbl.acts_mem b1.repr.step_lt b1.repr.q0 hw hx
        exact b1.bits q hq c hcl)
    rcases Nat.lt_or_ge i Ms.length with hi | hi
    · rw [List.getElem?_append_left hi] at hM
      rw [hz.1 i (by omega), a4 w hw i M hM]
    · rw [List.getElem?_append_right hi] at hM
      have hi' := (List.getElem?_eq_some_iff.1 hM).1
      have := hz.2 (i - Ms.length) (by omega)
      have e : a.reCount + (i - Ms.length) = i := by omega
      rw [e] at this
      rw [this, b4 w hw _ M hM]

theorem acts_outs {T : ATbl} {M : Machine} {remap : Nat → Nat} {opsX leafOps : Nat → List Op} (hs : ∀ q < T.n, ∀ c, IsLetter c → T.step q c < T.n)
    (hst : ∀ q < T.n, ∀ c, IsLetter c → T.step q c = M.step q c ∧ T.act q c = remap (M.out q c))
    (ho : ∀ x, opsX (remap x) = leafOps x) {q : Nat} (hq : q < T.n) {w : List Nat} (hw : IsWord w) :
    (T.acts q w).flatMap opsX = (M.outs q w).flatMap leafOps := by
  induction w generalizing q with
  | nil => rfl
  | cons c w ih =>
    have hc := hw c (by simp)
    obtain ⟨h1, h2⟩ := hst q hq c hc
    rw [ATbl.acts, Machine.outs, List.flatMap_cons, List.flatMap_cons, h2, ho, ih (hs q hq c hc) fun x hx => hw x (by simp [hx]), h1]

theorem fsmStep_machine {f : Fsm} (h : f.Det) {q c : Nat} (hc : IsLetter c) : fsmStep f q c = f.machine.step q c := by
  obtain ⟨r, hr⟩ := Option.isSome_iff_exists.1 ((h.all c).2 hc)
  obtain ⟨e, he, h1, hm⟩ := (h.wf.let_wf.inv_iff _ _).1 hr
  rw [fsmStep_eq h he hm]
  show _ = f.firstDst q (f.letters.representative c)
  unfold Partition.representative
  rw [hr, ← h1]
  rfl

theorem remapBasic_bits (x j : Nat) (h : (remapBasic x).testBit j = true) : j < 1 ∨ (16 ≤ j ∧ j < 16 + 1) := by
  unfold remapBasic at h
  split at h
  · have := bit_one _ h; omega
  · split at h
    · rw [Nat.testBit_shiftLeft, Bool.and_eq_true] at h
      have e : Loaded.MaxReCount = 16 := rfl
      rw [e] at h
      have := bit_one _ h.2
      have := of_decide_eq_true h.1
      omega
    · simp at h

theorem remapBasic_lt (x : Nat) : remapBasic x % 2 ^ 32 = remapBasic x := by
  unfold remapBasic
  split
  · rfl
  · split <;> rfl

/-- Basic operations by bits. -/
def gBasic (i r : Bool) : List Op := (if i then [.inc] else []) ++ if r then [.reset] else []
/-- Advanced operations by bits. -/
def gAdvanced (i r : Bool) : List Op := (if r then [.reset] else []) ++ if i then [.inc] else []

theorem remapBasic_ops (x : Nat) : gBasic ((remapBasic x).testBit 0) ((remapBasic x).testBit (16 + 0)) = basicOps x := by
  unfold remapBasic basicOps
  split
  · rfl
  · split
    · rfl
    · rfl

theorem leaf_basic {f : Fsm} {base : Nat} (h : f.Det) (hP : f.letters.size ≤ 256) (ha : base % 8 = 0)
    (hs : base + bufSize f.size f.letters.size ≤ 2 ^ 64) (hlim : f.size * (f.letters.size * 8) ≤ 2 ^ 31) :
    Facts gBasic basicOps true (compileCanonized 0 1 remapBasic base f) [f.machine] := by
  obtain ⟨h1, h2, h3, h4⟩ := compileCanonized_repr 0 1 remapBasic h hP ha hs hlim
  have hnl : f.size * (f.letters.size * 8) = 8 * (f.size * f.letters.size) := by ring
  have hre : (compileCanonized 0 1 remapBasic base f).reCount = 1 := by unfold Loaded.reCount; rw [h3, h2]; rfl
  refine ⟨_, base, ⟨h1, by omega, ?_⟩, fun _ => h4.owned (by omega), hre, ?_⟩
  · intro q hq c hc j hj
    rw [hre]
    have hj' : (remapBasic (f.output q (fsmStep f q c)) % 2 ^ 32).testBit j = true := hj
    rw [remapBasic_lt] at hj'
    exact remapBasic_bits _ _ hj'
  · intro w hw i M hM
    have hi : i = 0 := by have := (List.getElem?_eq_some_iff.1 hM).1; simp at this; exact this
    subst hi
    obtain rfl : f.machine = M := by simpa using hM
    refine acts_outs (M := f.machine) (remap := remapBasic) (opsX := fun a => gBasic (a.testBit 0) (a.testBit (16 + 0))) h1.step_lt ?_ remapBasic_ops h1.q0 hw
    intro q hq c hc
    have e := fsmStep_machine h (q := q) hc
    refine ⟨e, ?_⟩
    show remapBasic (f.output q (fsmStep f q c)) % 2 ^ 32 = _
    rw [remapBasic_lt, e]
    rfl

theorem testBit_one' (x : Nat) : (x &&& 1 ≠ 0) ↔ x.testBit 0 = true := by
  have := bit_ne x 0
  simpa using this

theorem testBit_two' (x : Nat) : (x &&& 2 ≠ 0) ↔ x.testBit 1 = true := by
  have := bit_ne x 1
  simpa using this

theorem remapAdvanced_cases (x : Nat) : remapAdvanced x = (if x.testBit 1 then 65536 else 0) ||| if x.testBit 0 then 1 else 0 := by
  unfold remapAdvanced
  simp only [testBit_one', testBit_two']
  rfl

theorem remapAdvanced_lt (x : Nat) : remapAdvanced x % 2 ^ 32 = remapAdvanced x := by
  rw [remapAdvanced_cases]
  cases x.testBit 1 <;> cases x.testBit 0 <;> rfl

theorem remapAdvanced_ops (x : Nat) : gAdvanced ((remapAdvanced x).testBit 0) ((remapAdvanced x).testBit (16 + 0)) = advancedOps x := by
  rw [remapAdvanced_cases]
  unfold advancedOps
  cases x.testBit 1 <;> cases x.testBit 0 <;> rfl

theorem remapAdvanced_bits (x j : Nat) (h : (remapAdvanced x).testBit j = true) : j < 1 ∨ (16 ≤ j ∧ j < 16 + 1) := by
  rw [remapAdvanced_cases, Nat.testBit_or, Bool.or_eq_true] at h
  rcases h with h | h
  · split at h
    · have e : (65536 : Nat) = 2 ^ 16 := rfl
      rw [e, Nat.testBit_two_pow] at h
      simp at h
      omega
    · simp at h
  · split at h
    · have := bit_one _ h; omega
    · simp at h

theorem leaf_advanced {base : Nat} {letters : Partition} {M : Machine} (hw : letters.WF) (hal : Multi.AllLetters letters) (hP : letters.size ≤ 256)
    (h0 : M.q0 < M.n) (ha : base % 8 = 0)
    (hs : base + bufSize M.n letters.size ≤ 2 ^ 64) (hlim : M.n * (letters.size * 8) ≤ 2 ^ 31)
    (hstep : ∀ q < M.n, ∀ c, IsLetter c → M.step q c < M.n)
    (hcls : ∀ q < M.n, ∀ e ∈ letters.set, ∀ c ∈ e.members, M.step q c = M.step q e.rep ∧ M.out q c = M.out q e.rep) :
    Facts gAdvanced advancedOps true (fillTable remapAdvanced base M.n M.q0 letters M.step M.out) [M] := by
  obtain ⟨h1, h2, h3, h4⟩ := fillTable_repr (remap := remapAdvanced) hw hal hP h0 ha hs hlim hstep hcls
  have hnl : M.n * (letters.size * 8) = 8 * (M.n * letters.size) := by ring
  have hre : (fillTable remapAdvanced base M.n M.q0 letters M.step M.out).reCount = 1 := by unfold Loaded.reCount; rw [h3, h2]; rfl
  refine ⟨_, base, ⟨h1, by omega, ?_⟩, fun _ => h4.owned (by omega), hre, ?_⟩
  · intro q hq c hc j hj
    rw [hre]
    have hj' : (remapAdvanced (M.out q c) % 2 ^ 32).testBit j = true := hj
    rw [remapAdvanced_lt] at hj'
    exact remapAdvanced_bits _ _ hj'
  · intro w hw i M' hM
    have hi : i = 0 := by have := (List.getElem?_eq_some_iff.1 hM).1; simp at this; exact this
    subst hi
    obtain rfl : M = M' := by simpa using hM
    refine acts_outs (M := M) (remap := remapAdvanced) (opsX := fun a => gAdvanced (a.testBit 0) (a.testBit (16 + 0))) h1.step_lt ?_ remapAdvanced_ops h1.q0 hw
    intro q hq c hc
    exact ⟨rfl, remapAdvanced_lt _⟩

/-- The empty scanner. -/
theorem facts_null {g : Bool → Bool → List Op} {leafOps : Nat → List Op} {base : Nat} {s : Loaded} (h : Loaded.null base = some s)
    (ha : base % 8 = 0) (hb : base ≤ 2 ^ 63) : Facts g leafOps false s [] ∧ s.empty = true := by
  unfold Loaded.null at h
  rw [Option.map_eq_some_iff] at h
  obtain ⟨f, hf, rfl⟩ := h
  have hgood := Fsm.Good.makeFalse
  have hdet := (Fsm.canonize_spec hgood hf).1
  have hz : f.ZeroOut := Fsm.ZeroOut.canonize (f := Fsm.makeFalse) (by intro q p v h; cases h) hf
  have hsz := Fsm.canonize_size hgood hf
  rw [if_neg (by decide), if_neg (by decide)] at hsz
  have hl := Fsm.null_letters hf
  have hM : MaxChar = 264 := rfl
  have hnl : f.size * (f.letters.size * 8) = 8 * (f.size * f.letters.size) := by ring
  have hmul : f.size * f.letters.size ≤ f.size * 1 := Nat.mul_le_mul_left _ hl
  obtain ⟨h1, h2, h3, h4⟩ := compileCanonized_repr 0 0 id hdet (by omega) ha (by unfold bufSize; rw [hM, hnl]; omega) (by omega)
  generalize compileCanonized 0 0 id base f = t at *
  have hre : Loaded.reCount { t with empty := true } = 0 := rfl
  refine ⟨⟨_, base, ⟨⟨h1.q0, h1.step_lt, h1.pos, h1.small, h1.align, h1.space, h1.limit, h1.states, h1.initial, h1.letter, h1.next, h1.tag⟩, ?_, ?_⟩, ?_, ?_, ?_⟩, rfl⟩
  · rw [hre]; omega
  · intro q hq c hc j hj
    have hj' : (f.output q (fsmStep f q c) % 2 ^ 32).testBit j = true := hj
    rw [hz.output] at hj'
    simp at hj'
  · intro h; cases h
  · exact hre
  · intro w hw i M hM
    simp at hM

/-! ### Without the limit on the number of regexps -/

/-- The table of actions begins with its length. -/
def ActsHead (s : NoLimit) : Prop := ∀ l, s.actions = some l → l.headD 0 = l.length ∧ l.length < 2 ^ 32 ∧ 0 < l.length

/-- See `Facts`. -/
def FactsNL (own : Bool) (s : NoLimit) (Ms : List Machine) : Prop :=
  ∃ T D base, NLSound s T D ∧ (own = true → Owned s.base base) ∧ (ActsHead s ∧ Ms.length < 2 ^ 32) ∧ s.base.reCount = Ms.length ∧ ∀ w, IsWord w → ∀ i M, Ms[i]? = some M →
    (T.acts T.q0 w).flatMap (fun a => nlOps i (D a)) = (M.outs M.q0 w).flatMap advancedOps

theorem FactsNL.result {own : Bool} {s : NoLimit} {Ms : List Machine} (h : FactsNL own s Ms) {w : List Nat} (hw : IsWord w) (hl : 2 * w.length < 2 ^ 32) :
    ∃ st, (scnNoLimit s).after (scnNoLimit s).initial w = some st ∧ ∀ i M, Ms[i]? = some M →
      MaxRun ((M.outs M.q0 w).flatMap advancedOps) (st.result i) := by
  obtain ⟨T, D, base, h1, -, -, -, h4⟩ := h
  obtain ⟨st, k1, -, k3⟩ := run_nl h1 hw
  refine ⟨st, k1, fun i M hM => ?_⟩
  have hlen : ∀ q w, (M.outs q w).length = w.length := by
    intro q w
    induction w generalizing q with
    | nil => rfl
    | cons c w ih => rw [Machine.outs, List.length_cons, List.length_cons, ih]
  have hol : ((M.outs M.q0 w).flatMap advancedOps).length < 2 ^ 32 := by
    refine lt_of_le_of_lt (flatMap_len (fun a => ?_) _) (by rw [hlen]; exact hl)
    unfold advancedOps
    split <;> split <;> simp
  have := k3 i
  rw [h4 w hw i M hM, foldl_opMod _ hol] at this
  have e : st.result i = (ops ((M.outs M.q0 w).flatMap advancedOps)).2 := by
    unfold State.result
    unfold nlLoc at this
    have e1 := congrArg Prod.fst this
    have e2 := congrArg Prod.snd this
    simp only at e1 e2
    rw [e1, e2]
    exact max_eq_right (ops_le _)
  rw [e]
  exact (ops_spec _).2

theorem NLSound.rebase {s : NoLimit} {T : ATbl} {D : Nat → List Nat × List Nat} (h : NLSound s T D) {b : Loaded} (hb : Repr b T)
    (hre : b.reCount = s.base.reCount) : NLSound { s with base := b } T D := by
  refine ⟨hb, h.compat, h.ids, fun q hq c hc => ?_⟩
  obtain ⟨r1, r2, r3⟩ := h.read q hq c hc
  exact ⟨r1, fun i hi => hre.symm ▸ r2 i hi, fun i hi => hre.symm ▸ r3 i hi⟩

theorem NoLimit.copy_false (s : NoLimit) (base' : Nat) : s.copyCtor false base' = s := by
  unfold NoLimit.copyCtor Loaded.copyCtor
  rw [if_neg Bool.false_ne_true]

theorem FactsNL.rebase {own own' : Bool} {s : NoLimit} {Ms : List Machine} (h : FactsNL own s Ms) {b : Loaded} {base : Nat}
    (hR : ∀ T, Repr s.base T → Repr b T) (hre : b.reCount = s.base.reCount) (ho : own' = true → Owned b base) :
    FactsNL own' { s with base := b } Ms := by
  obtain ⟨T, D, _, h1, -, h5, h3, h4⟩ := h
  exact ⟨T, D, base, h1.rebase (hR T h1.repr) hre, ho, ⟨fun l hl => h5.1 l hl, h5.2⟩, hre.trans h3, h4⟩

theorem FactsNL.copy {own : Bool} {s : NoLimit} {Ms : List Machine} (h : FactsNL own s Ms) {base' : Nat}
    (ha : base' % 8 = 0) (hs : base' + bufSize s.base.statesCount s.base.lettersCount ≤ 2 ^ 64) : FactsNL own (s.copyCtor own base') Ms := by
  cases own with
  | false => rw [NoLimit.copy_false]; exact h
  | true =>
    obtain ⟨T0, D, base, h1, h2, -⟩ := id h
    refine h.rebase (base := base') (fun T hT => (copyCtor_repr (own := true) hT (fun _ => h2 rfl) ha hs).1) ?_ fun _ => owned_copy h1.repr
    exact (copyCtor_repr (own := true) h1.repr (fun _ => h2 rfl) ha hs).2

theorem nlOps_left {n i : Nat} (hi : i < n) (x y : List Nat × List Nat) : nlOps i (glueLists n x y) = nlOps i x := by
  have h : ∀ l : List Nat, ((l.map (· + n)).filter (· == i)) = [] := by
    intro l
    rw [List.filter_eq_nil_iff]
    intro a ha
    obtain ⟨b, -, rfl⟩ := List.mem_map.1 ha
    simp; omega
  unfold nlOps glueLists
  simp only [List.filter_append, h, List.append_nil]

theorem nlOps_right {n i : Nat} (x y : List Nat × List Nat) (h1 : ∀ a ∈ x.1, a < n) (h2 : ∀ a ∈ x.2, a < n) :
    nlOps (n + i) (glueLists n x y) = nlOps i y := by
  have h : ∀ l : List Nat, (∀ a ∈ l, a < n) → l.filter (· == n + i) = [] := by
    intro l hl
    rw [List.filter_eq_nil_iff]
    intro a ha
    have := hl a ha
    simp; omega
  have h' : ∀ (l : List Nat) (o : Op), (((l.map (· + n)).filter (· == n + i)).map fun _ => o) = (l.filter (· == i)).map fun _ => o := by
    intro l o
    rw [List.filter_map, List.map_map]
    have : ((fun x => x == n + i) ∘ fun x => x + n) = (fun x => x == i) := by
      funext a
      simp only [Function.comp]
      rw [Nat.add_comm n i]
      exact decide_eq_decide.2 (Nat.add_right_cancel_iff)
    rw [this]; rfl
  unfold nlOps glueLists
  simp only [List.filter_append, h _ h1, h _ h2, List.nil_append, h']

theorem flatMap_zip_nl {Da Db : Nat → List Nat × List Nat} {n : Nat} {xs ys : List Nat} (hl : xs.length = ys.length)
    (hx : ∀ x ∈ xs, (∀ a ∈ (Da x).1, a < n) ∧ ∀ a ∈ (Da x).2, a < n) :
    (∀ i < n, (List.zipWith (fun x y => glueLists n (Da x) (Db y)) xs ys).flatMap (nlOps i) = xs.flatMap fun a => nlOps i (Da a)) ∧
      ∀ i, (List.zipWith (fun x y => glueLists n (Da x) (Db y)) xs ys).flatMap (nlOps (n + i)) = ys.flatMap fun a => nlOps i (Db a) := by
  induction xs generalizing ys with
  | nil =>
    cases ys with
    | nil => exact ⟨fun _ _ => rfl, fun _ => rfl⟩
    | cons y ys => cases hl
  | cons a xs ih =>
    cases ys with
    | nil => cases hl
    | cons b ys =>
      obtain ⟨i1, i2⟩ := ih (Nat.succ.inj hl) (fun y hy' => hx y (by simp [hy']))
      obtain ⟨k1, k2⟩ := hx a (by simp)
      refine ⟨fun i hi => ?_, fun i => ?_⟩
      · rw [List.zipWith_cons_cons, List.flatMap_cons, List.flatMap_cons, nlOps_left hi, i1 i hi]
      · rw [List.zipWith_cons_cons, List.flatMap_cons, List.flatMap_cons, nlOps_right _ _ k1 k2, i2 i]

theorem connect_grow {a b : NoLimit} {states : List (Nat × Nat)} (conns : List (Nat × Nat × Nat)) (g0 : GlueState) {g : GlueState}
    (h : conns.foldlM (connectNoLimit a b states) g0 = some g) : g0.acts.length ≤ g.acts.length := by
  induction conns generalizing g0 with
  | nil => cases h; exact le_refl _
  | cons x conns ih =>
    rw [List.foldlM_cons] at h
    obtain ⟨g1, h1, h2⟩ := Option.bind_eq_some_iff.1 h
    refine le_trans ?_ (ih g1 h2)
    unfold connectNoLimit at h1
    simp only [Option.bind_eq_some_iff, Option.map_eq_some_iff] at h1
    obtain ⟨ga, -, gb, -, rfl⟩ := h1
    split
    · exact le_refl _
    · split
      · exact le_refl _
      · simp

theorem glueNoLimit_form {null : Loaded} {base base' : Nat} {a b g : NoLimit} {maxSize : Nat} (hn : null.empty = true)
    (hg : glueNoLimit null base base' a b maxSize = some g) (he : g.base.empty = false) :
    ¬ (glueTask a.base b.base).TooMany (glueLimit maxSize) ∧ (∃ x, g.base = copyCtor true base' x) ∧
      ∃ acts : List Nat, 0 < acts.length ∧ g.actions = some (acts.set 0 (acts.length % 2 ^ 32)) := by
  obtain ⟨h1, h2⟩ := DTask.run_spec (t := glueTask a.base b.base) (glueLetters_wf a.base b.base) (glueLimit maxSize)
  unfold glueNoLimit at hg
  unfold glueLimit at h2 ⊢
  cases hr : (glueTask a.base b.base).run (if maxSize ≠ 0 then maxSize else 250000) with
  | none =>
    rw [hr] at hg
    cases hg
    rw [show ({ base := null, actions := none, compat := false } : NoLimit).base = null from rfl, hn] at he
    cases he
  | some x =>
    obtain ⟨states, conns⟩ := x
    rw [hr] at hg
    simp only at hg
    rw [Option.map_eq_some_iff] at hg
    obtain ⟨s, hs, rfl⟩ := hg
    refine ⟨fun ht => ?_, ⟨_, rfl⟩, s.acts, ?_, rfl⟩
    · rw [h2.2 ht] at hr
      cases hr
    · exact lt_of_lt_of_le (by simp) (connect_grow _ _ hs)

theorem FactsNL.glue {a b g : NoLimit} {null : Loaded} {oa ob : Bool} {Ms Ns : List Machine} (ha : FactsNL oa a Ms)
    (hb : FactsNL ob b Ns) {base base' maxSize : Nat} (hn : null.empty = true) (hg : glueNoLimit null base base' a b maxSize = some g)
    (he : g.base.empty = false) (hsz : Ms.length + Ns.length < 2 ^ 32)
    (hacts : ∀ l, g.actions = some l → l.length < 2 ^ 32)
    (hP : (glueLetters a.base b.base).size ≤ 256) (hal : base % 8 = 0) (hbs : base ≤ 2 ^ 63) (hal' : base' % 8 = 0) (hbs' : base' ≤ 2 ^ 63)
    (hlim : glueLimit maxSize < 2 ^ 20) : FactsNL true g (Ms ++ Ns) := by
  obtain ⟨Ta, Da, ba, a1, -, -, a3, a4⟩ := ha
  obtain ⟨Tb, Db, bb, b1, -, -, b3, b4⟩ := hb
  obtain ⟨ht, ⟨x, hx⟩, acts, hpos, hga⟩ := glueNoLimit_form hn hg he
  obtain ⟨g', T, D, t1, t2, t3, -, t5⟩ := glueNoLimit_sound (null := null) a1 b1 (by rw [a3, b3]; exact hsz) ht hP hal hbs hal' hbs' hlim
    (fun g' l h1 h2 => by rw [hg] at h1; cases h1; exact hacts l h2)
  rw [hg] at t1
  cases t1
  have hhead : ActsHead g := by
    intro l hl
    have hlt := hacts l hl
    rw [hga] at hl
    injection hl with hl
    subst hl
    rw [List.length_set] at hlt ⊢
    obtain ⟨y, ys, rfl⟩ := List.exists_cons_of_length_pos hpos
    rw [List.set_cons_zero]
    exact ⟨Nat.mod_eq_of_lt hlt, hlt, hpos⟩
  refine ⟨T, D, base', t2, fun _ => ?_, ⟨hhead, by rw [List.length_append]; exact hsz⟩, by rw [t3, a3, b3, List.length_append], ?_⟩
  · have hlim := t2.repr.limit
    have hst := t2.repr.states
    have hnl : T.n * (g.base.lettersCount * 8) = 8 * (T.n * g.base.lettersCount) := by ring
    rw [hnl] at hlim
    have hmul : g.base.statesCount * g.base.lettersCount < 2 ^ 32 := by rw [hst]; omega
    rw [hx, (copy_counts x base').1, (copy_counts x base').2] at hmul
    rw [hx]
    exact owned_copy' hmul
  · intro w hw i M hM
    have e : (T.acts T.q0 w).flatMap (fun a => nlOps i (D a)) = ((T.acts T.q0 w).map D).flatMap (nlOps i) := by rw [List.flatMap_map]
    rw [e, t5 w hw]
    obtain ⟨z1, z2⟩ := flatMap_zip_nl (Da := Da) (Db := Db) (n := a.base.reCount) (xs := Ta.acts Ta.q0 w) (ys := Tb.acts Tb.q0 w)
      (by rw [ATbl.acts_length, ATbl.acts_length])
      (fun x hx => by
        obtain ⟨q, hq, c, hcl, rfl⟩ := ATbl.acts_mem a1.repr.step_lt a1.repr.q0 hw hx
        exact (a1.read q hq c hcl).2)
    rcases Nat.lt_or_ge i Ms.length with hi | hi
    · rw [List.getElem?_append_left hi] at hM
      rw [z1 i (by omega), a4 w hw i M hM]
    · rw [List.getElem?_append_right hi] at hM
      have := z2 (i - Ms.length)
      rw [a3] at this
      have e : Ms.length + (i - Ms.length) = i := by omega
      rw [e] at this
      rw [a3, this, b4 w hw _ M hM]

/-- The lists of an action of a scanner that has not been glued. -/
def leafLists (a : Nat) : List Nat × List Nat := (if a &&& 2 ≠ 0 then [0] else [], if a &&& 1 ≠ 0 then [0] else [])

theorem leafLists_read {s : NoLimit} (h : s.actions = none) (a : Nat) (ha : s.base.reCount = 1 ∨ a = 0) : Readable s a (leafLists a) := by
  unfold Readable
  refine ⟨?_, ?_, ?_⟩
  · unfold NoLimit.getActions
    rw [h]
    split
    · rename_i e; subst e; rfl
    · rfl
  · intro i hi
    unfold leafLists at hi
    split at hi
    · rcases ha with ha | ha
      · rw [ha, List.mem_singleton.1 hi]; omega
      · subst ha; simp_all
    · cases hi
  · intro i hi
    unfold leafLists at hi
    simp only at hi
    split at hi
    · rcases ha with ha | ha
      · rw [ha, List.mem_singleton.1 hi]; omega
      · subst ha; simp_all
    · cases hi

theorem leafLists_ops (x : Nat) : nlOps 0 (leafLists (x % 2 ^ 32)) = advancedOps x := by
  unfold leafLists advancedOps nlOps
  simp only [testBit_one', testBit_two', Nat.testBit_mod_two_pow]
  cases x.testBit 1 <;> cases x.testBit 0 <;> rfl

theorem leaf_nl {base : Nat} {letters : Partition} {M : Machine} (hw : letters.WF) (hal : Multi.AllLetters letters) (hP : letters.size ≤ 256)
    (h0 : M.q0 < M.n) (ha : base % 8 = 0)
    (hs : base + bufSize M.n letters.size ≤ 2 ^ 64) (hlim : M.n * (letters.size * 8) ≤ 2 ^ 31)
    (hstep : ∀ q < M.n, ∀ c, IsLetter c → M.step q c < M.n)
    (hcls : ∀ q < M.n, ∀ e ∈ letters.set, ∀ c ∈ e.members, M.step q c = M.step q e.rep ∧ M.out q c = M.out q e.rep) :
    FactsNL true { base := fillTable id base M.n M.q0 letters M.step M.out, actions := none, compat := false } [M] := by
  obtain ⟨h1, h2, h3, h4⟩ := fillTable_repr (remap := id) hw hal hP h0 ha hs hlim hstep hcls
  have hnl : M.n * (letters.size * 8) = 8 * (M.n * letters.size) := by ring
  have hre : (fillTable id base M.n M.q0 letters M.step M.out).reCount = 1 := by unfold Loaded.reCount; rw [h3, h2]; rfl
  refine ⟨_, leafLists, base, ⟨h1, rfl, (fun l hl => by cases hl), fun q hq c hc => leafLists_read rfl _ (.inl hre)⟩, fun _ => h4.owned (by omega),
    ⟨(fun l hl => by cases hl), by simp⟩, hre, ?_⟩
  intro w hw i M' hM
  have hi : i = 0 := by have := (List.getElem?_eq_some_iff.1 hM).1; simp at this; exact this
  subst hi
  obtain rfl : M = M' := by simpa using hM
  exact acts_outs (M := M) (remap := fun x => x % 2 ^ 32) (opsX := fun a => nlOps 0 (leafLists a)) h1.step_lt (fun q hq c hc => ⟨rfl, rfl⟩) leafLists_ops h1.q0 hw

theorem facts_null_nl {base : Nat} {s : Loaded} (h : Loaded.null base = some s)
    (ha : base % 8 = 0) (hb : base ≤ 2 ^ 63) : FactsNL false { base := s, actions := none, compat := false } [] := by
  obtain ⟨⟨T, b, h1, h2, h3, -⟩, h4⟩ := facts_null (g := gBasic) (leafOps := basicOps) h ha hb
  refine ⟨T, leafLists, b, ⟨h1.repr, rfl, (fun l hl => by cases hl), fun q hq c hc => leafLists_read rfl _ (.inr ?_)⟩, h2,
    ⟨(fun l hl => by cases hl), by simp⟩, h3, ?_⟩
  · apply Nat.eq_of_testBit_eq
    intro j
    cases e : (T.act q c).testBit j with
    | false => simp
    | true =>
      have := h1.bits q hq c hc j e
      rw [h3] at this
      simp at this
      omega
  · intro w hw i M hM
    simp at hM

end Count
end Pire
