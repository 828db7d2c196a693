import Verif.Proofs.Layout
import Verif.Proofs.Bytes
import Verif.Spec.Running

/-!
# Scanner memory that represents a deterministic table

`Tbl` is an abstract table (states `0..n-1`, letter classes, flags, accepted regexps); `Repr P s T` says that the memory of
scanner `s` is the encoding of `T`.
-/

namespace Pire
open Spec

/-- An abstract scanner. -/
structure Tbl where
  n : Nat
  L : Nat
  cls : Nat → Nat
  δ : Nat → Nat → Nat
  flag : Nat → Nat
  acc : Nat → List Nat
  q0 : Nat
  regexps : Nat

namespace Tbl

/-- One letter. -/
def step (T : Tbl) (q c : Nat) : Nat := T.δ q (T.cls c)

/-- A word. -/
def after (T : Tbl) (q : Nat) (w : List Nat) : Nat := w.foldl T.step q

/-- Targets and classes are in range. -/
structure Wf (T : Tbl) : Prop where
  q0_lt : T.q0 < T.n
  δ_lt : ∀ q < T.n, ∀ k < T.L, T.δ q k < T.n
  cls_lt : ∀ c, IsLetter c → T.cls c < T.L
  onto : ∀ k < T.L, ∃ c, IsLetter c ∧ T.cls c = k
  acc_lt : ∀ q < T.n, ∀ x ∈ T.acc q, x < Multi.EndIdx

theorem Wf.step_lt {T : Tbl} (h : T.Wf) {q c : Nat} (hq : q < T.n) (hc : IsLetter c) : T.step q c < T.n :=
  h.δ_lt q hq _ (h.cls_lt c hc)

theorem Wf.after_lt {T : Tbl} (h : T.Wf) {q : Nat} {w : List Nat} (hq : q < T.n) (hw : ∀ c ∈ w, IsLetter c) : T.after q w < T.n := by
  induction w generalizing q with
  | nil => exact hq
  | cons c w ih => exact ih (h.step_lt hq (hw c (by simp))) fun c hc => hw c (by simp [hc])

end Tbl

/-- The typedef'd scanners: `NoShortcuts` or `ExitMasks<2>`, multi.h:1115-1123. -/
def Policy.Real (P : Policy) : Prop := P.masks = 0 ∨ P.masks = 2

namespace Multi

variable {P : Policy} {s : Multi} {T : Tbl}

/-- The block fits in the address space, is 8-aligned, and, for the relocatable version, displacements fit in 32 signed bits. -/
structure Fits (P : Policy) (base : Nat) (m : Locals) : Prop where
  align : base % 8 = 0
  space : base + bufSize P m ≤ 2 ^ 64
  disp : P.reloc = .relocatable → rowBytes P m * m.statesCount < 2 ^ 31

/-- The entries of the final table for state `q` are `l`, terminated by `End`. -/
structure FinalRun (P : Policy) (s : Multi) (q : Nat) (l : List Nat) : Prop where
  bound : s.get P (.finalIndex q) + l.length < s.m.finalTableSize
  entry : ∀ i (h : i < l.length), s.get P (.final (s.get P (.finalIndex q) + i)) = l[i]
  stop : s.get P (.final (s.get P (.finalIndex q) + l.length)) = EndIdx

/-- All four copies of mask `i` of a row hold `v`. -/
def MaskVal (P : Policy) (s : Multi) (row i v : Nat) : Prop := ∀ j < 4, s.get P (.mask row i j) = v

/-- The masks of row `q` tell the truth about table `T`. -/
def RowMasks (P : Policy) (s : Multi) (T : Tbl) (q : Nat) : Prop :=
  (MaskVal P s q 0 2 ∧ ∀ c < 256, T.step q c = q) ∨ MaskVal P s q 0 1 ∨
  ∃ a b, a < 256 ∧ b < 256 ∧ MaskVal P s q 0 (fillSizeT a) ∧ MaskVal P s q 1 (fillSizeT b) ∧
    ∀ c < 256, c ≠ a → c ≠ b → T.step q c = q

/-- The memory of `s`, without the masks, encodes `T`. -/
structure Core (P : Policy) (s : Multi) (T : Tbl) : Prop where
  wf : T.Wf
  fits : Fits P s.base s.m
  states : s.m.statesCount = T.n
  letters : s.m.lettersCount = T.L
  regexps : s.m.regexpsCount = T.regexps
  initial : s.m.initial = s.indexToState P T.q0
  letter : ∀ c, IsLetter c → s.get P (.letter c) = P.headerSize + T.cls c
  jump : ∀ q < T.n, ∀ k < T.L, s.get P (.slot q (P.headerSize + k)) =
    P.reloc.diff (s.indexToState P q) (s.indexToState P (T.δ q k))
  flags : ∀ q < T.n, s.get P (.flags q) = T.flag q
  finals : ∀ q < T.n, FinalRun P s q (T.acc q)

/-- The memory of `s` encodes `T`. -/
structure Repr (P : Policy) (s : Multi) (T : Tbl) : Prop extends Core P s T where
  masks : P.masks ≠ 0 → ∀ q < T.n, RowMasks P s T q

theorem bufSize_ge (P : Policy) (m : Locals) : transOff m + rowBytes P m * m.statesCount ≤ bufSize P m := by
  unfold bufSize transOff rowBytes
  refine le_trans ?_ (alignUp_ge _ (by omega))
  apply le_of_eq
  ring

theorem indexToState_lt (hf : Fits P s.base s.m) {q : Nat} (hq : q < s.m.statesCount) :
    s.indexToState P q + rowBytes P s.m ≤ 2 ^ 64 ∧
    s.indexToState P q + rowBytes P s.m ≤ s.trans + rowBytes P s.m * s.m.statesCount ∧ s.trans ≤ s.indexToState P q := by
  have h1 := rows_apart (R := rowBytes P s.m) hq
  have h2 := hf.space
  have h3 := bufSize_ge P s.m
  unfold indexToState trans
  omega

/-- A jump through the stored transition is exact. -/
theorem go_diff (hf : Fits P s.base s.m) {q p : Nat} (hq : q < s.m.statesCount) (hp : p < s.m.statesCount) :
    P.reloc.go (s.indexToState P q) (P.reloc.diff (s.indexToState P q) (s.indexToState P p)) = s.indexToState P p := by
  obtain ⟨a1, a2, a3⟩ := indexToState_lt hf hq
  obtain ⟨b1, b2, b3⟩ := indexToState_lt hf hp
  have hpos := rowBytes_pos P s.m
  cases hr : P.reloc with
  | nonrelocatable => rfl
  | relocatable =>
    have hd := hf.disp hr
    generalize s.indexToState P q = x at *
    generalize s.indexToState P p = y at *
    have hxy : x < y + 2 ^ 31 ∧ y < x + 2 ^ 31 := by omega
    show (x + Reloc.signExtend ((y + 2 ^ 64 - x) % 2 ^ 64 % 2 ^ 32)) % 2 ^ 64 = y
    rcases Nat.lt_or_ge y x with h | h
    · have e1 : (y + 2 ^ 64 - x) % 2 ^ 64 % 2 ^ 32 = y + 2 ^ 32 - x := by omega
      rw [e1, Reloc.signExtend, if_neg (by omega)]
      omega
    · have e1 : (y + 2 ^ 64 - x) % 2 ^ 64 % 2 ^ 32 = y - x := by omega
      rw [e1, Reloc.signExtend, if_pos (by omega)]
      omega

theorem diff_lt (hf : Fits P s.base s.m) {q p : Nat} (hp : p < s.m.statesCount) :
    P.reloc.diff (s.indexToState P q) (s.indexToState P p) < 256 ^ P.reloc.tsz := by
  obtain ⟨b1, b2, b3⟩ := indexToState_lt hf hp
  have hpos := rowBytes_pos P s.m
  cases hr : P.reloc with
  | nonrelocatable => simp only [Reloc.diff, Reloc.tsz]; omega
  | relocatable => simp only [Reloc.diff, Reloc.tsz]; omega

/-- Reading a row cell through the address of the state. -/
theorem read_row {q k n : Nat} {c : Cell} (hc : off P s.m c = transOff s.m + rowBytes P s.m * q + k) (hn : len P c = n) :
    Scn.readLE s.mem (s.indexToState P q + k) n = s.get P c := by
  unfold get indexToState trans
  rw [hc, hn]
  congr 1
  omega

theorem read_slot (s : Multi) (q k : Nat) :
    Scn.readLE s.mem (s.indexToState P q + P.reloc.tsz * k) P.reloc.tsz = s.get P (.slot q k) := read_row rfl rfl

theorem read_flags (s : Multi) (q : Nat) :
    Scn.readLE s.mem (s.indexToState P q + 32 * P.masks) 8 = s.get P (.flags q) := read_row rfl rfl

theorem read_mask (s : Multi) (q i j : Nat) :
    Scn.readLE s.mem (s.indexToState P q + 8 * (4 * i + j)) 8 = s.get P (.mask q i j) := read_row rfl rfl

theorem indexToState_inj {q p : Nat} (h : s.indexToState P q = s.indexToState P p) : q = p := by
  unfold indexToState at h
  exact Nat.eq_of_mul_eq_mul_left (rowBytes_pos P s.m) (by omega)

theorem stateIndex_indexToState (q : Nat) : s.stateIndex P (s.indexToState P q) = q := by
  unfold stateIndex indexToState
  rw [Nat.add_sub_cancel_left, Nat.mul_div_cancel_left _ (rowBytes_pos P s.m)]

namespace Core

theorem next_eq (h : Core P s T) {q c : Nat} (hq : q < T.n) (hc : IsLetter c) :
    s.next P (s.indexToState P q) c = s.indexToState P (T.step q c) := by
  unfold next
  rw [h.letter c hc, read_slot, h.jump q hq _ (h.wf.cls_lt c hc)]
  apply go_diff h.fits
  · rw [h.states]; exact hq
  · rw [h.states]; exact h.wf.step_lt hq hc

theorem step_eq (h : Core P s T) {q c : Nat} (hq : q < T.n) (hc : IsLetter c) :
    (s.scn P).step (s.indexToState P q) c = s.indexToState P (T.step q c) := h.next_eq hq hc

theorem after_eq (h : Core P s T) {q : Nat} {w : List Nat} (hq : q < T.n) (hw : ∀ c ∈ w, IsLetter c) :
    (s.scn P).after (s.indexToState P q) w = s.indexToState P (T.after q w) := by
  induction w generalizing q with
  | nil => rfl
  | cons c w ih =>
    unfold Scn.after Tbl.after
    rw [List.foldl_cons, List.foldl_cons, h.step_eq hq (hw c (by simp))]
    exact ih (h.wf.step_lt hq (hw c (by simp))) fun c hc => hw c (by simp [hc])

theorem flagsAt_eq (h : Core P s T) {q : Nat} (hq : q < T.n) : s.flagsAt P (s.indexToState P q) = T.flag q := by
  unfold flagsAt
  rw [read_flags, h.flags q hq]

theorem final_eq (h : Core P s T) {q : Nat} (hq : q < T.n) :
    (s.scn P).final (s.indexToState P q) = (T.flag q &&& 1 != 0) := by
  show (s.flagsAt P (s.indexToState P q) &&& 1 != 0) = _
  rw [h.flagsAt_eq hq]

theorem dead_eq (h : Core P s T) {q : Nat} (hq : q < T.n) :
    (s.scn P).dead (s.indexToState P q) = (T.flag q &&& 2 != 0) := by
  show (s.flagsAt P (s.indexToState P q) &&& 2 != 0) = _
  rw [h.flagsAt_eq hq]

theorem acceptedFrom_eq {l : List Nat} {pos fuel : Nat} (hfuel : l.length < fuel) (hlt : ∀ x ∈ l, x < EndIdx)
    (he : ∀ i (h : i < l.length), s.get P (.final (pos + i)) = l[i]) (hs : s.get P (.final (pos + l.length)) = EndIdx) :
    s.acceptedFrom P fuel pos = l := by
  induction l generalizing pos fuel with
  | nil =>
    obtain ⟨fuel, rfl⟩ : ∃ k, fuel = k + 1 := ⟨fuel - 1, by simp at hfuel; omega⟩
    unfold acceptedFrom
    rw [if_pos]
    simpa using hs
  | cons x l ih =>
    obtain ⟨fuel, rfl⟩ : ∃ k, fuel = k + 1 := ⟨fuel - 1, by simp at hfuel; omega⟩
    have h0 := he 0 (by simp)
    simp only [Nat.add_zero, List.getElem_cons_zero] at h0
    unfold acceptedFrom
    have hne : x ≠ EndIdx := Nat.ne_of_lt (hlt x (List.mem_cons_self ..))
    rw [h0, if_neg hne]
    congr 1
    apply ih (by simp at hfuel; omega) (fun y hy => hlt y (by simp [hy]))
    · intro i hi
      have := he (i + 1) (by simp; omega)
      simp only [List.getElem_cons_succ] at this
      have e : pos + 1 + i = pos + (i + 1) := by omega
      rw [e]; exact this
    · have e : pos + 1 + l.length = pos + (x :: l).length := by rw [List.length_cons]; omega
      rw [e]; exact hs

theorem acceptedRegexps_eq (h : Core P s T) {q : Nat} (hq : q < T.n) :
    s.acceptedRegexps P (s.indexToState P q) = T.acc q := by
  have hf := h.finals q hq
  unfold acceptedRegexps
  rw [stateIndex_indexToState]
  exact acceptedFrom_eq (by have := hf.bound; omega) (h.wf.acc_lt q hq) hf.entry hf.stop

end Core

theorem fillSizeT_ne (c : Nat) (hc : c < 256) : fillSizeT c ≠ 1 ∧ fillSizeT c ≠ 2 := by
  have h1 := byteOf_fill c hc 0 (by omega)
  have h2 := byteOf_fill c hc 1 (by omega)
  constructor
  · intro h; rw [h] at h1 h2; simp [byteOf] at h1 h2; omega
  · intro h; rw [h] at h1 h2; simp [byteOf] at h1 h2; omega

/-- The exit masks of an encoded scanner are right. -/
theorem Repr.maskSound (h : Repr P s T) (hP : P.Real) {q : Nat} (hq : q < T.n) :
    Scn.MaskSound (s.exitMasks P) (s.scn P) (s.indexToState P q) := by
  rcases hP with h0 | h2
  · have hm : s.exitMasks P (s.indexToState P q) = none := by unfold exitMasks; rw [if_pos h0]
    exact ⟨(by intro hx; rw [Masks.noExit, hm] at hx; cases hx), by intro hx; rw [Masks.noShortcut, hm] at hx; cases hx⟩
  · have hlet : ∀ c, c < 256 → IsLetter c := fun c hc => ⟨by omega, by omega⟩
    have hm : s.exitMasks P (s.indexToState P q) = some (s.get P (.mask q 0 0), s.get P (.mask q 1 0)) := by
      unfold exitMasks
      have h0 := read_mask (P := P) s q 0 0
      have h1 := read_mask (P := P) s q 1 0
      simp only [Nat.mul_zero, Nat.add_zero, Nat.mul_one, Nat.reduceMul] at h0 h1
      rw [if_neg (by omega), h1, h0]
    rcases h.masks (by omega) q hq with ⟨hm0, hs⟩ | hm0 | ⟨a, b, ha, hb, hm0, hm1, hs⟩
    · have e := hm0 0 (by omega)
      constructor
      · intro _ c hc
        rw [h.step_eq hq (hlet c hc), hs c hc]
      · intro _ hx; rw [Masks.noExit, hm, e] at hx; cases hx
    · have e := hm0 0 (by omega)
      constructor
      · intro hx; rw [Masks.noExit, hm, e] at hx; cases hx
      · intro hx; rw [Masks.noShortcut, hm, e] at hx; cases hx
    · have e := hm0 0 (by omega)
      have e' := hm1 0 (by omega)
      constructor
      · intro hx
        rw [Masks.noExit, hm, e] at hx
        exact absurd (by simpa using hx) (fillSizeT_ne a ha).2
      · intro _ _
        refine ⟨a, b, ha, hb, by rw [hm, e, e'], ?_⟩
        intro c hc h1 h2
        rw [h.step_eq hq (hlet c hc), hs c hc h1 h2]

end Multi
end Pire
