import Verif.Proofs.Shortcuts
import Verif.Proofs.Algebra
import Verif.Proofs.Dead

/-!
# Compiling a canonized automaton into a scanner
-/

namespace Pire
open Spec

/-- The abstract table of a determined automaton. -/
def tblOf (f : Fsm) : Tbl where
  n := f.size
  L := f.letters.size
  cls := fun c => (f.letters.index c).getD 0
  δ := f.cdelta
  flag := Multi.tagOf f f.deadStates
  acc := fun q => if Multi.tagOf f f.deadStates q &&& 1 ≠ 0 then [0] else []
  q0 := f.initial
  regexps := 1

/-- Tags set by the user do not touch the bits used for the final and dead flags. -/
def Fsm.TagsClean (f : Fsm) : Prop := ∀ q t, f.tags q = some t → t % 4 = 0

namespace Multi

theorem or_bits (t a b : Nat) (ht : t % 4 = 0) :
    ((t ||| (if a = 1 then 1 else 0) ||| (if b = 1 then 2 else 0)) % 256 &&& 1 ≠ 0 ↔ a = 1) ∧
    ((t ||| (if a = 1 then 1 else 0) ||| (if b = 1 then 2 else 0)) % 256 &&& 2 ≠ 0 ↔ b = 1) := by
  have e : ∀ x : Nat, (x % 256 &&& 1 ≠ 0 ↔ x.testBit 0 = true) ∧ (x % 256 &&& 2 ≠ 0 ↔ x.testBit 1 = true) := by
    intro x
    have h1 : x % 256 &&& 1 = x % 2 := by
      rw [Nat.and_one_is_mod]; omega
    have h2 : x % 256 &&& 2 = 2 * (x / 2 % 2) := by
      have key : ∀ y < 256, (y &&& 2) = 2 * (y / 2 % 2) := by decide +kernel
      rw [key _ (Nat.mod_lt _ (by omega))]
      omega
    rw [h1, h2, Nat.testBit_zero, Nat.testBit_succ, Nat.testBit_zero]
    simp only [decide_eq_true_eq]
    omega
  have t0 : t.testBit 0 = false := by rw [Nat.testBit_zero]; simp; omega
  have t1 : t.testBit 1 = false := by rw [Nat.testBit_succ, Nat.testBit_zero]; simp; omega
  rw [(e _).1, (e _).2]
  simp only [Nat.testBit_or, t0, t1, Bool.false_or]
  have b1 : Nat.testBit 1 1 = false := rfl
  have b2 : Nat.testBit 2 1 = true := rfl
  have b3 : Nat.testBit 1 0 = true := rfl
  have b4 : Nat.testBit 2 0 = false := rfl
  by_cases ha : a = 1 <;> by_cases hb : b = 1 <;> simp [ha, hb, b1, b2]

theorem tagOf_bits {f : Fsm} (h : f.TagsClean) (dead : Finset Nat) (q : Nat) :
    (tagOf f dead q &&& 1 ≠ 0 ↔ q ∈ f.finals) ∧ (tagOf f dead q &&& 2 ≠ 0 ↔ q ∈ dead) := by
  have ht : (f.tags q).getD 0 % 4 = 0 := by
    cases hq : f.tags q with
    | none => rfl
    | some t => exact h q t hq
  have := or_bits ((f.tags q).getD 0) (if f.isFinal q then 1 else 0) (if q ∈ dead then 1 else 0) ht
  unfold tagOf
  by_cases h1 : f.isFinal q = true <;> by_cases h2 : q ∈ dead <;> simp only [h1, h2, if_true, if_false, Bool.false_eq_true] at this ⊢
  all_goals
    have h1' := h1
    simp only [Fsm.isFinal, decide_eq_true_eq] at h1'
    simpa [h1'] using this

theorem tagOf_lt (f : Fsm) (dead : Finset Nat) (q : Nat) : tagOf f dead q < 256 := Nat.mod_lt _ (by omega)

end Multi

/-! ### The table -/

theorem tblOf_wf {f : Fsm} (h : f.Det) : (tblOf f).Wf := by
  refine ⟨h.wf.init_lt, ?_, ?_, ?_, ?_⟩
  · intro q hq k hk
    obtain ⟨e, he, rfl⟩ := Fsm.exists_class h.wf hk
    show f.cdelta q e.idx < f.size
    rw [Fsm.cdelta_eq h.wf he]
    exact (h.tr_rep hq he).2
  · intro c hc
    obtain ⟨e, he, hm⟩ := h.mem_class hc
    show (f.letters.index c).getD 0 < f.letters.size
    rw [h.wf.let_wf.index_eq he hm]
    exact h.wf.let_wf.idx_lt e he
  · intro k hk
    obtain ⟨e, he, rfl⟩ := Fsm.exists_class h.wf hk
    have hm := h.wf.let_wf.rep_mem e he
    refine ⟨e.rep, h.member_letter he hm, ?_⟩
    show (f.letters.index e.rep).getD 0 = e.idx
    rw [h.wf.let_wf.index_eq he hm]; rfl
  · intro q _ x hx
    simp only [tblOf] at hx
    split at hx
    · rw [List.mem_singleton.1 hx]; unfold Multi.EndIdx; omega
    · cases hx

theorem tblOf_step {f : Fsm} (h : f.Det) {q c : Nat} (hq : q < f.size) (hc : IsLetter c) (p : Nat) :
    f.Edge q c p ↔ p = (tblOf f).step q c := by
  obtain ⟨e, he, hm⟩ := h.mem_class hc
  rw [h.edge_class hq he hm]
  have : (tblOf f).step q c = f.cdelta q ((f.letters.index c).getD 0) := rfl
  rw [this, h.wf.let_wf.index_eq he hm, Option.getD_some, Fsm.cdelta_eq h.wf he]

theorem tblOf_run {f : Fsm} (h : f.Det) {w : List Nat} (hw : IsWord w) {q : Nat} (hq : q < f.size) (p : Nat) :
    Run f.Edge q w p ↔ p = (tblOf f).after q w := by
  induction w generalizing q with
  | nil =>
    constructor
    · intro hr
      cases hr with
      | refl => rfl
      | eps e _ => exact absurd e h.no_eps
    · intro hp; rw [hp]; exact .refl _
  | cons c w ih =>
    have hc := hw c (by simp)
    have hw' : IsWord w := fun x hx => hw x (by simp [hx])
    have hlt := (tblOf_wf h).step_lt hq hc
    constructor
    · intro hr
      cases hr with
      | eps e _ => exact absurd e h.no_eps
      | step _ e hr =>
        have := (tblOf_step h hq hc _).1 e
        subst this
        exact (ih hw' hlt).1 hr
    · intro hp
      exact .step hc.2 ((tblOf_step h hq hc _).2 rfl) ((ih hw' hlt).2 hp)

theorem tblOf_final {f : Fsm} (h : f.Det) (ht : f.TagsClean) {w : List Nat} (hw : IsWord w) {q : Nat} (hq : q < f.size) :
    (tblOf f).flag ((tblOf f).after q w) &&& 1 ≠ 0 ↔ w ∈ f.LangFrom q := by
  have := (Multi.tagOf_bits ht f.deadStates ((tblOf f).after q w)).1
  show Multi.tagOf f f.deadStates _ &&& 1 ≠ 0 ↔ _
  rw [this]
  constructor
  · intro hf; exact ⟨_, hf, (tblOf_run h hw hq _).2 rfl⟩
  · rintro ⟨p, hp, hr⟩; rw [← (tblOf_run h hw hq _).1 hr]; exact hp

/-! ### Size of the final table -/

theorem tblOf_upto_length {f : Fsm} (h : f.Det) (ht : f.TagsClean) : ((tblOf f).upto (tblOf f).n).length = f.finals.card + f.size := by
  have key : ∀ n, ((tblOf f).upto n).length = ((Finset.range n).filter (· ∈ f.finals)).card + n := by
    intro n
    induction n with
    | zero => rfl
    | succ n ih =>
      rw [Tbl.upto_succ, List.length_append, ih, Finset.range_add_one, Finset.filter_insert]
      have := (Multi.tagOf_bits ht f.deadStates n).1
      by_cases hf : n ∈ f.finals
      · have e : (tblOf f).acc n = [0] := by show (if _ then _ else _) = _; rw [if_pos (this.2 hf)]
        rw [e, if_pos hf, Finset.card_insert_of_notMem (by simp)]
        simp; omega
      · have e : (tblOf f).acc n = [] := by
          show (if _ then _ else _) = _
          rw [if_neg]
          intro hx; exact hf (this.1 hx)
        rw [e, if_neg hf]
        simp; omega
  rw [key]
  have : (Finset.range (tblOf f).n).filter (· ∈ f.finals) = f.finals := by
    ext q
    simp only [Finset.mem_filter, Finset.mem_range]
    exact ⟨fun h => h.2, fun hq => ⟨h.wf.fin_lt _ hq, hq⟩⟩
  rw [this]; rfl

namespace Multi
variable {P : Policy}

/-- The sizes of the block the compiler would allocate. -/
def localsOf (P : Policy) (f : Fsm) : Locals := (alloc P 0 f.size f.letters f.finals.card 1).m

/-- What must hold of the address and the sizes for the code not to overflow anything: the sizes fit in `ui32`, the block is
8-aligned and inside of the address space; the relocatable table is below 2 GB. -/
structure Room (P : Policy) (base : Nat) (f : Fsm) : Prop where
  small : f.finals.card + f.size < 2 ^ 32
  fits : Fits P base (localsOf P f)

theorem bufSize_congr {m m' : Locals} (h1 : m.statesCount = m'.statesCount) (h2 : m.lettersCount = m'.lettersCount)
    (h3 : m.finalTableSize = m'.finalTableSize) : bufSize P m = bufSize P m' ∧ rowBytes P m = rowBytes P m' := by
  unfold bufSize rowBytes rowSize
  rw [h1, h2, h3]
  exact ⟨rfl, rfl⟩

theorem Fits.congr {base : Nat} {m m' : Locals} (h : Fits P base m) (h1 : m'.statesCount = m.statesCount)
    (h2 : m'.lettersCount = m.lettersCount) (h3 : m'.finalTableSize = m.finalTableSize) : Fits P base m' := by
  obtain ⟨e1, e2⟩ := bufSize_congr (P := P) h1 h2 h3
  exact ⟨h.align, by rw [e1]; exact h.space, by rw [e2, h1]; exact h.disp⟩

/-- A scanner built from a determined automaton, with room for `F` entries of the final table, represents its table. -/
theorem buildScanner_repr {base F : Nat} {f : Fsm} (hP : P.Real) (h : f.Det) (hlen : ((tblOf f).upto (tblOf f).n).length ≤ F + f.size)
    (hsmall : F + f.size < 2 ^ 32) (hfits : Fits P base (alloc P 0 f.size f.letters F 1).m) :
    Repr P (buildScanner P f (init P base f.size f.letters F f.initial 1)) (tblOf f) ∧
    (buildScanner P f (init P base f.size f.letters F f.initial 1)).empty = false ∧
    (buildScanner P f (init P base f.size f.letters F f.initial 1)).base = base := by
  have hall : AllLetters f.letters := h.all
  have hw := h.wf.let_wf
  have hi := init_spec (P := P) (base := base) (n := f.size) (F := F) (q0 := f.initial) (R := 1) hP hw hall hsmall
    (by omega)
  unfold buildScanner
  simp only
  set s := init P base f.size f.letters F f.initial 1 with hs
  set T := tblOf f with hT
  have hwf : T.Wf := tblOf_wf h
  have hfit : Fits P s.base s.m := by
    rw [hi.base_eq]
    have hsz := hall.size_le hw
    have hsm := hsmall
    refine hfits.congr ?_ ?_ ?_
    · rw [hi.states]; show _ = f.size % 2 ^ 32; rw [Nat.mod_eq_of_lt (by omega)]
    · rw [hi.lettersCount]; show _ = f.letters.size % 2 ^ 32; rw [Nat.mod_eq_of_lt (by omega)]
    · rw [hi.finals]; show _ = (F + f.size) % 2 ^ 32; rw [Nat.mod_eq_of_lt (by omega)]
  have hcls : ∀ e ∈ f.letters.set, ∀ c ∈ e.members, T.cls c = e.idx := by
    intro e he c hc
    show (f.letters.index c).getD 0 = e.idx
    rw [hw.index_eq he hc]; rfl
  -- tags
  obtain ⟨W1, a1, a2, a3, a4⟩ := tags_eq (P := P) (s := s) (T := T) s hi.states T.n le_rfl
  have e1 : (List.range f.size).foldl (fun s state => s.setTag P state (tagOf f f.deadStates state)) s = writes P s W1 := a1
  rw [e1]
  -- jumps
  have e2 : ∀ s : Multi, (List.range f.size).foldl (fun s fr => f.letters.set.foldl (fun s e =>
      (elems (f.destinations fr e.rep)).foldl (fun s dest => s.setJump P fr e.rep dest) s) s) s =
      jumps P s ((List.range f.size).flatMap fun fr => f.letters.set.flatMap fun e =>
        (elems (f.destinations fr e.rep)).map fun dest => (fr, e.rep, dest)) := by
    intro s
    unfold jumps
    rw [List.foldl_flatMap]
    congr 1
    funext s fr
    rw [List.foldl_flatMap]
    congr 1
    funext s e
    rw [List.foldl_map]
  rw [e2]
  set J := (List.range f.size).flatMap fun fr => f.letters.set.flatMap fun e =>
        (elems (f.destinations fr e.rep)).map fun dest => (fr, e.rep, dest) with hJ
  have hdst : ∀ fr < f.size, ∀ e ∈ f.letters.set, elems (f.destinations fr e.rep) = [f.firstDst fr e.rep] := by
    intro fr hfr e he
    have htr : f.translate e.rep = e.rep := by
      unfold Fsm.translate
      split
      · rfl
      · unfold Partition.representative
        rw [hw.inv_of_mem he (hw.rep_mem e he)]; rfl
    have : f.destinations fr e.rep = {f.firstDst fr e.rep} := by
      unfold Fsm.destinations Fsm.dst
      rw [htr, (h.tr_rep hfr he).1]; rfl
    rw [this]
    have hnd := elems_nodup ({f.firstDst fr e.rep} : Finset Nat)
    have hmem : ∀ x, x ∈ elems ({f.firstDst fr e.rep} : Finset Nat) ↔ x = f.firstDst fr e.rep := by
      intro x; rw [mem_elems, Finset.mem_singleton]
    generalize elems ({f.firstDst fr e.rep} : Finset Nat) = l at hnd hmem
    match l, hnd, hmem with
    | [], _, hmem => exact absurd ((hmem _).2 rfl) (by simp)
    | [x], _, hmem => rw [(hmem x).1 (by simp)]
    | x :: y :: l, hnd, hmem =>
      have := (hmem x).1 (by simp)
      have := (hmem y).1 (by simp)
      simp_all
  have hJm : ∀ x ∈ J, ∃ fr < f.size, ∃ e ∈ f.letters.set, x = (fr, e.rep, f.firstDst fr e.rep) := by
    intro x hx
    obtain ⟨fr, hfr, hx⟩ := List.mem_flatMap.1 hx
    obtain ⟨e, he, hx⟩ := List.mem_flatMap.1 hx
    rw [hdst fr (List.mem_range.1 hfr) e he] at hx
    simp only [List.map_cons, List.map_nil, List.mem_singleton] at hx
    exact ⟨fr, List.mem_range.1 hfr, e, he, hx⟩
  have hrepc : ∀ e ∈ f.letters.set, T.cls e.rep = e.idx := fun e he => hcls e he _ (hw.rep_mem e he)
  obtain ⟨W2, b1, b2, b3, b4⟩ := jumps_eq (P := P) (s := writes P s W1) (T := T) (l := J) s (rest_writes s W1) (by
      intro x hx
      obtain ⟨fr, hfr, e, he, rfl⟩ := hJm x hx
      have hl := h.member_letter he (hw.rep_mem e he)
      refine ⟨hl, ?_⟩
      simp only
      rw [writes_get_keep a2 (Ok.of_letter hl.1), hi.letter e he _ (hw.rep_mem e he), hrepc e he]
      intro x hx
      obtain ⟨q, hq⟩ := a3 x hx
      rw [hq]; simp) hwf.cls_lt (by rw [writes_m, hi.lettersCount]; rfl) (by
      intro x hx
      obtain ⟨fr, hfr, e, he, rfl⟩ := hJm x hx
      simp only
      refine ⟨by rw [writes_m, hi.states]; exact hfr, ?_⟩
      rw [hrepc e he]
      exact (Fsm.cdelta_eq h.wf he _).symm)
  rw [b1, ← writes_append]
  rw [writes_m] at b2
  -- finals
  have hc12 : Consistent P s.m (tblVal P s T) (W1 ++ W2) := a2.append b2
  obtain ⟨W3, c1, c2, c3, c4, c5⟩ := fillFinals_eq (P := P) (s := writes P s (W1 ++ W2)) (T := T) s (by rw [writes_m, hi.states]; rfl) (by
      intro q hq
      rw [writes_get_val hc12 (by obtain ⟨v, hv⟩ := a4 q hq; exact ⟨v, List.mem_append_left _ hv⟩)]
      apply Nat.mod_eq_of_lt
      have := tagOf_lt f f.deadStates q
      show tagOf f f.deadStates q < 256 ^ 8
      omega) (fun q hq => rfl) (by rw [writes_m, hi.finals]; exact hlen)
  unfold finishBuild
  rw [c1, ← writes_append]
  rw [writes_m] at c2
  have hcore : Core P (writes P s (W1 ++ W2 ++ W3)) T := by
    refine core_of_writes hi hw hall hwf hfit rfl rfl rfl rfl hcls ?_ hlen hsmall
      ⟨hc12.append c2, ?_, ?_, ?_, ?_, ?_⟩
    · intro q _
      have := tagOf_lt f f.deadStates q
      show tagOf f f.deadStates q < _
      omega
    · intro x hx c
      rcases List.mem_append.1 hx with hx | hx
      · rcases List.mem_append.1 hx with hx | hx
        · obtain ⟨q, hq⟩ := a3 x hx; rw [hq]; simp
        · obtain ⟨q, k, hq⟩ := b3 x hx; rw [hq]; simp
      · rcases c3 x hx with ⟨q, hq⟩ | ⟨q, hq⟩ <;> rw [hq] <;> simp
    · intro q hq
      obtain ⟨v, hv⟩ := a4 q hq
      exact ⟨v, List.mem_append_left _ (List.mem_append_left _ hv)⟩
    · intro q hq
      obtain ⟨v, hv⟩ := c4 q hq
      exact ⟨v, List.mem_append_right _ hv⟩
    · intro j hj
      obtain ⟨v, hv⟩ := c5 j hj
      exact ⟨v, List.mem_append_right _ hv⟩
    · intro q hq k hk
      obtain ⟨e, he, rfl⟩ := Fsm.exists_class h.wf hk
      have hmemJ : (q, e.rep, f.firstDst q e.rep) ∈ J := by
        refine List.mem_flatMap.2 ⟨q, List.mem_range.2 hq, List.mem_flatMap.2 ⟨e, he, ?_⟩⟩
        rw [hdst q hq e he]; simp
      obtain ⟨v, hv⟩ := b4 _ hmemJ
      simp only at hv
      rw [hrepc e he] at hv
      exact ⟨v, List.mem_append_left _ (List.mem_append_right _ hv)⟩
  obtain ⟨r1, r2⟩ := buildShortcuts_spec hP hcore
  obtain ⟨-, r3, r4⟩ := m_of_rest r2
  refine ⟨r1, ?_, ?_⟩
  · rw [r4, writes_empty, hi.empty]
  · rw [r3, writes_base, hi.base_eq]

/-- A compiled scanner represents the table of its automaton. -/
theorem compileCanonized_repr {base : Nat} {f : Fsm} (hP : P.Real) (h : f.Det) (ht : f.TagsClean) (hroom : Room P base f) :
    Repr P (compileCanonized P base f) (tblOf f) ∧ (compileCanonized P base f).empty = false ∧
    (compileCanonized P base f).base = base :=
  buildScanner_repr hP h (le_of_eq (tblOf_upto_length h ht)) hroom.small hroom.fits

end Multi
end Pire
