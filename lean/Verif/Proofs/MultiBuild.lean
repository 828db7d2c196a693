import Verif.Proofs.MultiRepr
import Verif.Proofs.Partition
import Mathlib.Data.List.GetD

/-!
# Building a scanner: `Init`, `SetTag`, `SetJump`, the final table
-/

namespace Pire
open Spec
namespace Multi

variable {P : Policy} {s : Multi} {T : Tbl}

/-! ### Nothing but the memory changes -/

theorem foldl_same {α β : Type} {g : Multi → α} {f : Multi → β → Multi} (h : ∀ s x, g (f s x) = g s) (l : List β) (s : Multi) :
    g (l.foldl f s) = g s := by
  induction l generalizing s with
  | nil => rfl
  | cons x l ih => rw [List.foldl_cons, ih, h]

/-- The parts of a scanner that are not block memory. -/
def rest (s : Multi) : Locals × Nat × Bool := (s.m, s.base, s.empty)

theorem rest_set (s : Multi) (c : Cell) (v : Nat) : (s.set P c v).rest = s.rest := rfl

theorem rest_setMask (s : Multi) (row i v : Nat) : (s.setMask P row i v).rest = s.rest :=
  foldl_same (fun s j => rest_set s _ _) _ _

theorem rest_initHeader (s : Multi) (row : Nat) : (s.initHeader P row).rest = s.rest := by
  unfold initHeader
  rw [rest_set]
  exact foldl_same (fun s j => rest_setMask s _ _ _) _ _

theorem m_of_rest {s s' : Multi} (h : s.rest = s'.rest) : s.m = s'.m ∧ s.base = s'.base ∧ s.empty = s'.empty := by
  unfold rest at h
  simp only [Prod.mk.injEq] at h
  exact h

theorem off_initial (m : Locals) (x : Nat) (c : Cell) : off P { m with initial := x } c = off P m c := by cases c <;> rfl

/-! ### Writing a table of values -/

/-- Writes of the values given by `val`. -/
def Consistent (P : Policy) (m : Locals) (val : Cell → Nat) (W : List (Cell × Nat)) : Prop :=
  ∀ x ∈ W, Ok P m x.1 ∧ x.2 = val x.1

theorem Consistent.append {m : Locals} {val : Cell → Nat} {W W' : List (Cell × Nat)} (h : Consistent P m val W)
    (h' : Consistent P m val W') : Consistent P m val (W ++ W') := by
  intro x hx
  rcases List.mem_append.1 hx with hx | hx
  · exact h x hx
  · exact h' x hx

theorem Consistent.nil {m : Locals} {val : Cell → Nat} : Consistent P m val [] := by intro x hx; cases hx

theorem Consistent.cons {m : Locals} {val : Cell → Nat} {W : List (Cell × Nat)} {x : Cell × Nat} (hx : Ok P m x.1)
    (hv : x.2 = val x.1) (h : Consistent P m val W) : Consistent P m val (x :: W) := by
  intro y hy
  rcases List.mem_cons.1 hy with rfl | hy
  · exact ⟨hx, hv⟩
  · exact h y hy

theorem writes_get_val {val : Cell → Nat} {W : List (Cell × Nat)} (h : Consistent P s.m val W) {c : Cell}
    (hc : ∃ v, (c, v) ∈ W) : (writes P s W).get P c = val c % 256 ^ len P c := by
  obtain ⟨v, hv⟩ := hc
  have hval := (h _ hv).2
  simp only at hval
  rw [← hval]
  refine writes_get_of_mem (fun x hx => (h x hx).1) hv ?_
  intro x hx hxc
  rw [(h x hx).2, hxc, hval]

theorem writes_get_keep {val : Cell → Nat} {W : List (Cell × Nat)} (h : Consistent P s.m val W) {c : Cell} (hc : Ok P s.m c)
    (hn : ∀ x ∈ W, x.1 ≠ c) : (writes P s W).get P c = s.get P c := writes_get_of_not_mem (fun x hx => (h x hx).1) hc hn

/-! ### `Init` -/

section init
variable (P) (base n F q0 R : Nat) (letters : Partition)

/-- The letter table written by `Init`. -/
def letterWrites : List (Cell × Nat) :=
  letters.set.flatMap fun e => e.members.map fun c => (Cell.letter c, e.idx + P.headerSize)

theorem init_eq : ∃ s0 : Multi, init P base n letters F q0 R = writes P s0 (letterWrites P letters) ∧
    s0.rest = ({ (alloc P base n letters F R).m with initial := (alloc P base n letters F R).indexToState P q0 }, base, false) := by
  unfold init
  simp only
  set a := alloc P base n letters F R with ha
  have hr : ((List.range a.m.statesCount).foldl (fun s i => s.initHeader P i) a).rest = a.rest :=
    foldl_same (fun s i => rest_initHeader s i) _ _
  generalize (List.range a.m.statesCount).foldl (fun s i => s.initHeader P i) a = b at hr
  obtain ⟨h1, h2, h3⟩ := m_of_rest hr
  refine ⟨{ b with m := { b.m with initial := b.indexToState P q0 } }, ?_, ?_⟩
  · generalize ({ b with m := { b.m with initial := b.indexToState P q0 } } : Multi) = s
    unfold writes letterWrites
    rw [List.foldl_flatMap]
    congr 1
    funext s e
    rw [List.foldl_map]
  · unfold rest
    have : b.indexToState P q0 = a.indexToState P q0 := by
      unfold indexToState trans
      rw [h1, h2]
    rw [this, h1, h2, h3]
    rfl

end init

/-- What `Init` leaves behind. -/
structure Inited (P : Policy) (s : Multi) (base n F q0 R : Nat) (letters : Partition) : Prop where
  base_eq : s.base = base
  empty : s.empty = false
  states : s.m.statesCount = n
  lettersCount : s.m.lettersCount = letters.size
  finals : s.m.finalTableSize = F + n
  regexps : s.m.regexpsCount = R
  initial : s.m.initial = s.indexToState P q0
  relsig : s.m.relocationSignature = P.reloc.signature
  shortsig : s.m.shortcuttingSignature = P.shortSignature
  letter : ∀ e ∈ letters.set, ∀ c ∈ e.members, s.get P (.letter c) = P.headerSize + e.idx

/-- Every byte and mark is classified. -/
def AllLetters (p : Partition) : Prop := ∀ c, (p.inv c).isSome = true ↔ IsLetter c

theorem AllLetters.size_le {p : Partition} (hw : p.WF) (hl : AllLetters p) : p.size ≤ 264 := by
  have h1 : (p.set.map PClass.rep).Nodup := by
    have := hw.sorted
    rw [List.nodup_iff_pairwise_ne, List.pairwise_map]
    exact this.imp fun h => Nat.ne_of_lt h
  have h2 : p.set.map PClass.rep ⊆ List.range 264 := by
    intro r hr
    obtain ⟨e, he, rfl⟩ := List.mem_map.1 hr
    have : p.inv e.rep = some e.rep := hw.inv_of_mem he (hw.rep_mem e he)
    have := (hl e.rep).1 (by rw [this]; rfl)
    exact List.mem_range.2 this.1
  have := (List.nodup_iff_count_le_one.1 h1)
  have := h1.length_le_of_subset h2
  simpa [Partition.size] using this

theorem headerSize_le (hP : P.Real) : P.headerSize ≤ 18 := by
  unfold Policy.headerSize Policy.headerBytes
  rcases hP with h | h <;> rw [h] <;> rcases tsz_cases P.reloc with h' | h' <;> rw [h'] <;> omega

theorem init_spec {base n F q0 R : Nat} {letters : Partition} (hP : P.Real) (hw : letters.WF) (hl : AllLetters letters)
    (hn : F + n < 2 ^ 32) (hR : R < 2 ^ 32) : Inited P (init P base n letters F q0 R) base n F q0 R letters := by
  obtain ⟨s0, h1, h2⟩ := init_eq P base n F q0 R letters
  have hsz := hl.size_le hw
  have hhs := headerSize_le hP
  obtain ⟨hm, hb, he⟩ := (by simpa only [rest, Prod.mk.injEq] using h2 : s0.m = _ ∧ s0.base = _ ∧ s0.empty = _)
  have hst : s0.m.statesCount = n := by rw [hm]; show n % 2 ^ 32 = n; exact Nat.mod_eq_of_lt (by omega)
  have hlc : s0.m.lettersCount = letters.size := by rw [hm]; show letters.size % 2 ^ 32 = _; exact Nat.mod_eq_of_lt (by omega)
  have hft : s0.m.finalTableSize = F + n := by rw [hm]; show (F + n) % 2 ^ 32 = _; exact Nat.mod_eq_of_lt (by omega)
  have hrc : s0.m.regexpsCount = R := by rw [hm]; show R % 2 ^ 32 = _; exact Nat.mod_eq_of_lt (by omega)
  rw [h1]
  refine ⟨?_, ?_, ?_, ?_, ?_, ?_, ?_, ?_, ?_, ?_⟩ <;> try simp only [writes_m, writes_base, writes_empty]
  · exact hb
  · exact he
  · exact hst
  · exact hlc
  · exact hft
  · exact hrc
  · unfold indexToState trans
    rw [writes_m, writes_base, hm, hb]
    rfl
  · rw [hm]; rfl
  · rw [hm]; rfl
  · intro e he c hc
    have hmem : (Cell.letter c, e.idx + P.headerSize) ∈ letterWrites P letters :=
      List.mem_flatMap.2 ⟨e, he, List.mem_map.2 ⟨c, hc, rfl⟩⟩
    have key : ∀ x ∈ letterWrites P letters, ∃ e ∈ letters.set, ∃ c ∈ e.members, x = (Cell.letter c, e.idx + P.headerSize) := by
      intro x hx
      obtain ⟨e, he, hx⟩ := List.mem_flatMap.1 hx
      obtain ⟨c, hc, rfl⟩ := List.mem_map.1 hx
      exact ⟨e, he, c, hc, rfl⟩
    rw [writes_get_of_mem ?_ hmem ?_]
    · have := hw.idx_lt e he
      unfold Partition.size at hsz
      rw [Nat.mod_eq_of_lt]
      · omega
      · show _ < 256 ^ 2
        omega
    · intro x hx
      obtain ⟨e, he, c, hc, rfl⟩ := key x hx
      have := (hl c).1 (by rw [hw.inv_of_mem he hc]; rfl)
      exact this.1
    · intro x hx hxc
      obtain ⟨e', he', c', hc', rfl⟩ := key x hx
      simp only [Cell.letter.injEq] at hxc
      subst hxc
      rw [hw.class_unique' he he' hc hc']

end Multi

/-! ### The final table -/

namespace Tbl

/-- The final table up to state `q`. -/
def upto (T : Tbl) (q : Nat) : List Nat := (List.range q).flatMap fun i => T.acc i ++ [Multi.EndIdx]

theorem upto_succ (T : Tbl) (q : Nat) : T.upto (q + 1) = T.upto q ++ (T.acc q ++ [Multi.EndIdx]) := by
  unfold upto
  rw [List.range_succ, List.flatMap_append, List.flatMap_singleton]

theorem upto_prefix (T : Tbl) {q n : Nat} (h : q ≤ n) : T.upto q <+: T.upto n := by
  induction n with
  | zero => rw [Nat.le_zero.1 h]
  | succ n ih =>
    rcases Nat.lt_or_ge q (n + 1) with hlt | hge
    · exact (ih (by omega)).trans (by rw [upto_succ]; exact List.prefix_append _ _)
    · rw [Nat.le_antisymm h hge]

theorem upto_get (T : Tbl) {q n i : Nat} (h : q < n) (hi : i < (T.acc q ++ [Multi.EndIdx]).length) :
    (T.upto q).length + i < (T.upto n).length ∧
    (T.upto n).getD ((T.upto q).length + i) 0 = (T.acc q ++ [Multi.EndIdx])[i] := by
  obtain ⟨r, hr⟩ := T.upto_prefix (Nat.succ_le_of_lt h)
  rw [Nat.succ_eq_add_one, upto_succ] at hr
  rw [← hr]
  constructor
  · simp only [List.length_append] at hi ⊢; omega
  · rw [List.getD_append _ _ _ _ (by simp only [List.length_append] at hi ⊢; omega),
      List.getD_append_right _ _ _ _ (by omega), Nat.add_sub_cancel_left, List.getD_eq_getElem _ _ hi]

end Tbl

namespace Multi

/-- The values the cells of a scanner for `T` must have. -/
def tblVal (P : Policy) (s : Multi) (T : Tbl) : Cell → Nat
  | .flags q => T.flag q
  | .finalIndex q => (T.upto q).length
  | .final j => (T.upto T.n).getD j 0
  | .slot q k => P.reloc.diff (s.indexToState P q) (s.indexToState P (T.δ q (k - P.headerSize)))
  | _ => 0

/-- Everything needed of `W` and the table for the result to represent it. -/
structure Fills (P : Policy) (s : Multi) (T : Tbl) (W : List (Cell × Nat)) : Prop where
  cons : Consistent P s.m (tblVal P s T) W
  noLetter : ∀ x ∈ W, ∀ c, x.1 ≠ .letter c
  flags : ∀ q < T.n, ∃ v, (Cell.flags q, v) ∈ W
  index : ∀ q < T.n, ∃ v, (Cell.finalIndex q, v) ∈ W
  final : ∀ j < (T.upto T.n).length, ∃ v, (Cell.final j, v) ∈ W
  slot : ∀ q < T.n, ∀ k < T.L, ∃ v, (Cell.slot q (P.headerSize + k), v) ∈ W

theorem indexToState_congr {s s' : Multi} (h : s.rest = s'.rest) (q : Nat) : s.indexToState P q = s'.indexToState P q := by
  obtain ⟨h1, h2, -⟩ := m_of_rest h
  unfold indexToState trans
  rw [h1, h2]

theorem rest_writes (s : Multi) (W : List (Cell × Nat)) : (writes P s W).rest = s.rest := by
  unfold rest; rw [writes_m, writes_base, writes_empty]

theorem core_of_writes {base n F q0 R : Nat} {letters : Partition} (hi : Inited P s base n F q0 R letters) (hw : letters.WF)
    (hl : AllLetters letters) (hwf : T.Wf) (hfit : Fits P s.base s.m)
    (hn : T.n = n) (hL : T.L = letters.size) (hq0 : T.q0 = q0) (hR : T.regexps = R)
    (hcls : ∀ e ∈ letters.set, ∀ c ∈ e.members, T.cls c = e.idx) (hflag : ∀ q < T.n, T.flag q < 2 ^ 64)
    (htab : (T.upto T.n).length ≤ F + n) (hbig : F + n < 2 ^ 32) {W : List (Cell × Nat)} (hW : Fills P s T W) :
    Core P (writes P s W) T := by
  have hm : (writes P s W).m = s.m := writes_m ..
  have hix : ∀ q, (writes P s W).indexToState P q = s.indexToState P q := indexToState_congr (rest_writes s W)
  have hval : ∀ {c : Cell}, (∃ v, (c, v) ∈ W) → (writes P s W).get P c = tblVal P s T c % 256 ^ len P c := writes_get_val hW.cons
  have hfi : ∀ q < T.n, (writes P s W).get P (.finalIndex q) = (T.upto q).length := by
    intro q hq
    rw [hval (hW.index q hq)]
    apply Nat.mod_eq_of_lt
    have := (T.upto_prefix (Nat.le_of_lt hq)).length_le
    show (T.upto q).length < 256 ^ 8
    omega
  have hfin : ∀ j < (T.upto T.n).length, (writes P s W).get P (.final j) = (T.upto T.n).getD j 0 := by
    intro j hj
    rw [hval (hW.final j hj)]
    apply Nat.mod_eq_of_lt
    show (T.upto T.n).getD j 0 < 256 ^ 8
    rw [List.getD_eq_getElem _ _ hj]
    have : (T.upto T.n)[j] ∈ T.upto T.n := List.getElem_mem hj
    obtain ⟨q, hq, hx⟩ := List.mem_flatMap.1 this
    rcases List.mem_append.1 hx with hx | hx
    · have := hwf.acc_lt q (List.mem_range.1 hq) _ hx
      unfold EndIdx at this; omega
    · rw [List.mem_singleton.1 hx]; unfold EndIdx; omega
  refine ⟨hwf, by rw [hm, writes_base]; exact hfit, by rw [hm, hi.states, hn], by rw [hm, hi.lettersCount, hL],
    by rw [hm, hi.regexps, hR], by rw [hm, hix, hi.initial, hq0], ?_, ?_, ?_, ?_⟩
  · intro c hc
    obtain ⟨r, hr⟩ := Option.isSome_iff_exists.1 ((hl c).2 hc)
    obtain ⟨e, he, -, hce⟩ := (hw.inv_iff _ _).1 hr
    rw [writes_get_keep hW.cons (show Ok P s.m (.letter c) from hc.1) (fun x hx => hW.noLetter x hx c), hi.letter e he c hce,
      hcls e he c hce]
  · intro q hq k hk
    rw [hix, hix, hval (hW.slot q hq k hk)]
    have : tblVal P s T (.slot q (P.headerSize + k)) = P.reloc.diff (s.indexToState P q) (s.indexToState P (T.δ q k)) := by
      simp only [tblVal]; rw [Nat.add_sub_cancel_left]
    rw [this]
    apply Nat.mod_eq_of_lt
    apply diff_lt hfit
    rw [hi.states, ← hn]; exact hwf.δ_lt q hq k hk
  · intro q hq
    rw [hval (hW.flags q hq)]
    exact Nat.mod_eq_of_lt (by have := hflag q hq; show _ < 256 ^ 8; unfold tblVal; omega)
  · intro q hq
    refine ⟨?_, ?_, ?_⟩
    · rw [hfi q hq, hm, hi.finals]
      have := (T.upto_get hq (i := (T.acc q).length) (by simp)).1
      omega
    · intro i hlt
      have := T.upto_get hq (i := i) (by simp; omega)
      rw [hfi q hq, hfin _ this.1, this.2, List.getElem_append_left hlt]
    · have := T.upto_get hq (i := (T.acc q).length) (by simp)
      rw [hfi q hq, hfin _ this.1, this.2, List.getElem_append_right (by omega)]
      simp

/-! ### Jumps -/

/-- A sequence of `SetJump(from, letter, to)` calls. -/
def jumps (P : Policy) (s : Multi) (l : List (Nat × Nat × Nat)) : Multi := l.foldl (fun s x => s.setJump P x.1 x.2.1 x.2.2) s

theorem jumps_eq {l : List (Nat × Nat × Nat)} (s0 : Multi) (hrest : s.rest = s0.rest)
    (hlet : ∀ x ∈ l, IsLetter x.2.1 ∧ s.get P (.letter x.2.1) = P.headerSize + T.cls x.2.1)
    (hcls : ∀ c, IsLetter c → T.cls c < T.L) (hL : s.m.lettersCount = T.L)
    (hl : ∀ x ∈ l, x.1 < s.m.statesCount ∧ x.2.2 = T.δ x.1 (T.cls x.2.1)) :
    ∃ W, jumps P s l = writes P s W ∧ Consistent P s.m (tblVal P s0 T) W ∧ (∀ x ∈ W, ∃ q k, x.1 = .slot q k) ∧
      ∀ x ∈ l, ∃ v, (Cell.slot x.1 (P.headerSize + T.cls x.2.1), v) ∈ W := by
  induction l generalizing s with
  | nil => exact ⟨[], rfl, Consistent.nil, by simp, by simp⟩
  | cons x l ih =>
    obtain ⟨q, c, p⟩ := x
    obtain ⟨hc, hg⟩ := hlet (q, c, p) (by simp)
    obtain ⟨hq, hp⟩ := hl (q, c, p) (by simp)
    simp only at hc hg hq hp
    have hok : Ok P s.m (.slot q (P.headerSize + T.cls c)) := by
      refine ⟨hq, by omega, ?_⟩
      have := rowSize_ge P s.m
      have := hcls c hc
      rw [hL] at *
      omega
    set s1 := s.set P (.slot q (P.headerSize + T.cls c)) (P.reloc.diff (s.indexToState P q) (s.indexToState P p)) with hs1
    have hj : s.setJump P q c p = s1 := by unfold setJump; rw [hg]
    obtain ⟨W, h1, h2, h3, h4⟩ := ih (s := s1) hrest (fun x hx => by
        obtain ⟨a, b⟩ := hlet x (List.mem_cons_of_mem _ hx)
        refine ⟨a, ?_⟩
        rw [← b]
        exact get_set_ne s _ hok (show Ok P s.m (.letter _) from a.1) (by simp)) hL
      (fun x hx => hl x (List.mem_cons_of_mem _ hx))
    refine ⟨(Cell.slot q (P.headerSize + T.cls c), P.reloc.diff (s.indexToState P q) (s.indexToState P p)) :: W, ?_, ?_, ?_, ?_⟩
    · unfold jumps at h1 ⊢
      rw [List.foldl_cons]
      simp only
      rw [hj, h1]; rfl
    · refine Consistent.cons hok ?_ h2
      simp only [tblVal]
      rw [Nat.add_sub_cancel_left, ← hp, indexToState_congr hrest, indexToState_congr hrest]
    · intro x hx
      rcases List.mem_cons.1 hx with rfl | hx
      · exact ⟨_, _, rfl⟩
      · exact h3 x hx
    · intro x hx
      rcases List.mem_cons.1 hx with rfl | hx
      · exact ⟨_, List.mem_cons_self ..⟩
      · obtain ⟨v, hv⟩ := h4 x hx
        exact ⟨v, List.mem_cons_of_mem _ hv⟩

/-! ### `FinishBuild`: the final table -/

theorem fillFinals_eq (s0 : Multi) (hst : s.m.statesCount = T.n) (hflag : ∀ q < T.n, s.get P (.flags q) = T.flag q)
    (hacc : ∀ q < T.n, T.acc q = if T.flag q &&& 1 ≠ 0 then [0] else []) (htab : (T.upto T.n).length ≤ s.m.finalTableSize) :
    ∃ W, s.fillFinals P = writes P s W ∧ Consistent P s.m (tblVal P s0 T) W ∧
      (∀ x ∈ W, (∃ q, x.1 = .finalIndex q) ∨ ∃ j, x.1 = .final j) ∧
      (∀ q < T.n, ∃ v, (Cell.finalIndex q, v) ∈ W) ∧ ∀ j < (T.upto T.n).length, ∃ v, (Cell.final j, v) ∈ W := by
  unfold fillFinals
  rw [hst]
  suffices h : ∀ n ≤ T.n, ∃ W, (List.range n).foldl (fun (r : Multi × Nat) state =>
      let s := r.1.set P (.finalIndex state) r.2
      let r := if s.get P (.flags state) &&& 1 ≠ 0 then (s.set P (.final r.2) 0, r.2 + 1) else (s, r.2)
      (r.1.set P (.final r.2) EndIdx, r.2 + 1)) (s, 0) = (writes P s W, (T.upto n).length) ∧
      Consistent P s.m (tblVal P s0 T) W ∧
      (∀ x ∈ W, (∃ q, x.1 = .finalIndex q) ∨ ∃ j, x.1 = .final j) ∧
      (∀ q < n, ∃ v, (Cell.finalIndex q, v) ∈ W) ∧ ∀ j < (T.upto n).length, ∃ v, (Cell.final j, v) ∈ W by
    obtain ⟨W, h1, h2, h3, h4, h5⟩ := h T.n le_rfl
    exact ⟨W, by rw [h1], h2, h3, h4, h5⟩
  intro n hn
  induction n with
  | zero => exact ⟨[], rfl, Consistent.nil, by simp, by simp, by simp [Tbl.upto]⟩
  | succ n ih =>
    obtain ⟨W, h1, h2, h3, h4, h5⟩ := ih (by omega)
    rw [List.range_succ, List.foldl_append, h1, List.foldl_cons, List.foldl_nil]
    simp only
    have hokI : Ok P s.m (.finalIndex n) := by show n < _; omega
    have hlen := (T.upto_prefix hn).length_le
    have hg : ((writes P s W).set P (.finalIndex n) (T.upto n).length).get P (.flags n) = T.flag n := by
      rw [get_set_ne _ _ (by rw [writes_m]; exact hokI) (by rw [writes_m]; show n < _; omega) (by simp), ← hflag n (by omega)]
      apply writes_get_keep h2 (show n < _ by omega)
      intro x hx
      rcases h3 x hx with ⟨q, hq⟩ | ⟨j, hj⟩
      · rw [hq]; simp
      · rw [hj]; simp
    have hget : ∀ i (hi : i < (T.acc n ++ [EndIdx]).length),
        (T.upto T.n).getD ((T.upto n).length + i) 0 = (T.acc n ++ [EndIdx])[i] := fun i hi => (T.upto_get (by omega) hi).2
    rw [T.upto_succ] at hlen
    have hac := hacc n (by omega)
    rw [hg]
    by_cases hf : T.flag n &&& 1 ≠ 0
    · rw [if_pos hf] at hac ⊢
      rw [hac] at hget hlen
      have e0 := hget 0 (by simp)
      have e1 := hget 1 (by simp)
      simp only [Nat.add_zero, List.cons_append, List.nil_append, List.getElem_cons_zero, List.getElem_cons_succ] at e0 e1
      simp only [List.length_append, List.length_cons, List.length_nil, List.cons_append, List.nil_append] at hlen
      refine ⟨W ++ [(.finalIndex n, (T.upto n).length), (.final (T.upto n).length, 0), (.final ((T.upto n).length + 1), EndIdx)],
        ?_, ?_, ?_, ?_, ?_⟩
      · rw [writes_append, T.upto_succ, hac]
        simp only [writes_cons, writes_nil, List.length_append, List.length_cons, List.length_nil]
      · refine h2.append (Consistent.cons hokI rfl (Consistent.cons (show _ < _ by omega) e0.symm
          (Consistent.cons (show _ < _ by omega) e1.symm Consistent.nil)))
      · intro x hx
        rcases List.mem_append.1 hx with hx | hx
        · exact h3 x hx
        · simp only [List.mem_cons, List.not_mem_nil, or_false] at hx
          rcases hx with rfl | rfl | rfl
          · exact .inl ⟨_, rfl⟩
          · exact .inr ⟨_, rfl⟩
          · exact .inr ⟨_, rfl⟩
      · intro q hq
        by_cases hqn : q = n
        · subst hqn; exact ⟨(T.upto q).length, List.mem_append_right _ (by simp)⟩
        · obtain ⟨v, hv⟩ := h4 q (by omega)
          exact ⟨v, List.mem_append_left _ hv⟩
      · intro j hj
        rw [T.upto_succ, hac] at hj
        simp only [List.length_append, List.length_cons, List.length_nil, List.cons_append, List.nil_append] at hj
        by_cases hj1 : j < (T.upto n).length
        · obtain ⟨v, hv⟩ := h5 j hj1
          exact ⟨v, List.mem_append_left _ hv⟩
        · have : j = (T.upto n).length ∨ j = (T.upto n).length + 1 := by omega
          rcases this with rfl | rfl
          · exact ⟨0, List.mem_append_right _ (by simp)⟩
          · exact ⟨EndIdx, List.mem_append_right _ (by simp)⟩
    · rw [if_neg hf] at hac ⊢
      rw [hac] at hget hlen
      have e0 := hget 0 (by simp)
      simp only [Nat.add_zero, List.nil_append, List.getElem_cons_zero] at e0
      simp only [List.length_append, List.length_cons, List.length_nil, List.nil_append] at hlen
      refine ⟨W ++ [(.finalIndex n, (T.upto n).length), (.final (T.upto n).length, EndIdx)], ?_, ?_, ?_, ?_, ?_⟩
      · rw [writes_append, T.upto_succ, hac]
        simp only [writes_cons, writes_nil, List.length_append, List.length_cons, List.length_nil]
      · refine h2.append (Consistent.cons hokI rfl (Consistent.cons (show _ < _ by omega) e0.symm Consistent.nil))
      · intro x hx
        rcases List.mem_append.1 hx with hx | hx
        · exact h3 x hx
        · simp only [List.mem_cons, List.not_mem_nil, or_false] at hx
          rcases hx with rfl | rfl
          · exact .inl ⟨_, rfl⟩
          · exact .inr ⟨_, rfl⟩
      · intro q hq
        by_cases hqn : q = n
        · subst hqn; exact ⟨(T.upto q).length, List.mem_append_right _ (by simp)⟩
        · obtain ⟨v, hv⟩ := h4 q (by omega)
          exact ⟨v, List.mem_append_left _ hv⟩
      · intro j hj
        rw [T.upto_succ, hac] at hj
        simp only [List.length_append, List.length_cons, List.length_nil, List.nil_append] at hj
        by_cases hj1 : j < (T.upto n).length
        · obtain ⟨v, hv⟩ := h5 j hj1
          exact ⟨v, List.mem_append_left _ hv⟩
        · have : j = (T.upto n).length := by omega
          subst this
          exact ⟨EndIdx, List.mem_append_right _ (by simp)⟩

/-! ### Tags -/

theorem tags_eq (s0 : Multi) (hst : s.m.statesCount = T.n) (n : Nat) (hn : n ≤ T.n) :
    ∃ W, (List.range n).foldl (fun s q => s.setTag P q (T.flag q)) s = writes P s W ∧ Consistent P s.m (tblVal P s0 T) W ∧
      (∀ x ∈ W, ∃ q, x.1 = .flags q) ∧ ∀ q < n, ∃ v, (Cell.flags q, v) ∈ W := by
  refine ⟨(List.range n).map fun q => (.flags q, T.flag q), ?_, ?_, ?_, ?_⟩
  · unfold writes; rw [List.foldl_map]; rfl
  · intro x hx
    obtain ⟨q, hq, rfl⟩ := List.mem_map.1 hx
    have := List.mem_range.1 hq
    exact ⟨show q < _ by omega, rfl⟩
  · intro x hx
    obtain ⟨q, hq, rfl⟩ := List.mem_map.1 hx
    exact ⟨q, rfl⟩
  · intro q hq
    exact ⟨_, List.mem_map.2 ⟨q, List.mem_range.2 hq, rfl⟩⟩

end Multi
end Pire
