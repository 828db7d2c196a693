import Verif.Model.Simple
import Verif.Proofs.Io

/-!
# SimpleScanner: memory, semantics
-/

namespace Pire
open Spec

theorem Fsm.Det.elems_dst {f : Fsm} (h : f.Det) {fr : Nat} (hq : fr < f.size) {e : PClass} (he : e ∈ f.letters.set) :
    elems (f.destinations fr e.rep) = [f.firstDst fr e.rep] := by
  have hw := h.wf.let_wf
  have htr : f.translate e.rep = e.rep := by
    unfold Fsm.translate
    split
    · rfl
    · unfold Partition.representative
      rw [hw.inv_of_mem he (hw.rep_mem e he)]; rfl
  have : f.destinations fr e.rep = {f.firstDst fr e.rep} := by
    unfold Fsm.destinations Fsm.dst
    rw [htr, (h.tr_rep hq he).1]; rfl
  rw [this]
  have hnd := elems_nodup ({f.firstDst fr e.rep} : Finset Nat)
  have hmem : ∀ x, x ∈ elems ({f.firstDst fr e.rep} : Finset Nat) ↔ x = f.firstDst fr e.rep := by
    intro x; rw [mem_elems, Finset.mem_singleton]
  generalize elems ({f.firstDst fr e.rep} : Finset Nat) = l at hnd hmem
  match l, hnd, hmem with
  | [], _, hmem => exact absurd ((hmem _).2 rfl) (by simp)
  | [x], _, hmem => rw [(hmem x).1 (by simp)]
  | x :: y :: l, hnd, hmem =>
    have := (hmem x).1 (by simp)
    have := (hmem y).1 (by simp)
    simp_all

namespace Simple

/-- Several stores into the block. -/
def writes (s : Simple) (W : List (Nat × Nat)) : Simple := W.foldl (fun s x => s.set x.1 x.2) s

theorem writes_rest (s : Simple) (W : List (Nat × Nat)) : (s.writes W).statesCount = s.statesCount ∧ (s.writes W).initial = s.initial ∧
    (s.writes W).base = s.base ∧ (s.writes W).empty = s.empty := by
  induction W generalizing s with
  | nil => exact ⟨rfl, rfl, rfl, rfl⟩
  | cons x W ih => exact ih (s.set x.1 x.2)

theorem read_set (s : Simple) (i j v : Nat) : Scn.readLE (s.set i v).mem (word s.base j) 8 =
    if j = i then v % 2 ^ 64 else Scn.readLE s.mem (word s.base j) 8 := by
  unfold set word
  simp only
  split
  · rename_i h
    rw [h, readLE_write_same, show (256:Nat) ^ 8 = 2 ^ 64 by norm_num]
  · rename_i h
    exact readLE_write_disj _ (by omega)

theorem read_writes {W : List (Nat × Nat)} {i : Nat} (hc : ∀ v v', (i, v) ∈ W → (i, v') ∈ W → v = v') (s : Simple) :
    (∀ v, (i, v) ∈ W → Scn.readLE (s.writes W).mem (word s.base i) 8 = v % 2 ^ 64) ∧
    ((∀ v, (i, v) ∉ W) → Scn.readLE (s.writes W).mem (word s.base i) 8 = Scn.readLE s.mem (word s.base i) 8) := by
  induction W generalizing s with
  | nil => exact ⟨fun v h => absurd h (by simp), fun _ => rfl⟩
  | cons x W ih =>
    have ih' := ih (fun v v' h h' => hc v v' (by simp [h]) (by simp [h'])) (s.set x.1 x.2)
    have hb : (s.set x.1 x.2).base = s.base := rfl
    rw [hb] at ih'
    have e : (s.writes (x :: W)) = (s.set x.1 x.2).writes W := rfl
    rw [e]
    constructor
    · intro v hv
      by_cases hin : ∃ v', (i, v') ∈ W
      · obtain ⟨v', hv'⟩ := hin
        rw [hc v v' hv (by simp [hv'])]
        exact ih'.1 v' hv'
      · rcases List.mem_cons.1 hv with h | h
        · rw [ih'.2 fun v' hv' => hin ⟨v', hv'⟩, ← h, read_set, if_pos rfl]
        · exact absurd ⟨v, h⟩ hin
    · intro hn
      rw [ih'.2 fun v hv => hn v (by simp [hv]), read_set, if_neg]
      intro h
      exact hn x.2 (by rw [h]; simp)

/-- The block encodes the table. -/
structure Repr (s : Simple) (T : Tbl) : Prop where
  wf : T.Wf
  align : s.base % 8 = 0
  space : s.base + bufSize s.statesCount ≤ 2 ^ 64
  states : s.statesCount = T.n
  initial : s.initial = s.indexToState T.q0
  jump : ∀ q < T.n, ∀ c, IsLetter c → Scn.readLE s.mem (word s.base (q * rowSize + 1 + c)) 8 =
    (T.step q c + 2 ^ 64 - q) % 2 ^ 64 * rowSize * 8 % 2 ^ 64
  tag : ∀ q < T.n, (Scn.readLE s.mem (word s.base (q * rowSize)) 8 ≠ 0 ↔ T.flag q &&& 1 ≠ 0)

variable {s : Simple} {T : Tbl}

theorem jump_arith {b q p n : Nat} (hq : q < n) (hp : p < n) (hs : b + 2120 * n ≤ 2 ^ 64) :
    (b + 8 * (q * 265 + 1) + (p + 2 ^ 64 - q) % 2 ^ 64 * 265 * 8 % 2 ^ 64) % 2 ^ 64 = b + 8 * (p * 265 + 1) := by
  rcases Nat.lt_or_ge p q with h | h
  · have e : (p + 2 ^ 64 - q) % 2 ^ 64 = 2 ^ 64 - (q - p) := by omega
    rw [e]
    have e2 : (2 ^ 64 - (q - p)) * 265 * 8 = 2 ^ 64 * 2119 + (2 ^ 64 - 2120 * (q - p)) := by omega
    rw [e2, Nat.mul_add_mod]
    omega
  · have e : (p + 2 ^ 64 - q) % 2 ^ 64 = p - q := by omega
    rw [e]
    omega

theorem Repr.next_eq (h : Repr s T) {q c : Nat} (hq : q < T.n) (hc : IsLetter c) : s.next (s.indexToState q) c = s.indexToState (T.step q c) := by
  have hj := h.jump q hq c hc
  have e : s.indexToState q + 8 * c = word s.base (q * rowSize + 1 + c) := by unfold indexToState word; omega
  unfold next
  rw [e, hj]
  have hs := h.space
  rw [h.states] at hs
  exact jump_arith hq (h.wf.step_lt hq hc) (by unfold bufSize rowSize at hs; have hM : MaxChar = 264 := rfl; rw [hM] at hs; omega)

theorem Repr.final_eq (h : Repr s T) {q : Nat} (hq : q < T.n) : s.final (s.indexToState q) = (T.flag q &&& 1 != 0) := by
  have ht := h.tag q hq
  have e : s.indexToState q - 8 = word s.base (q * rowSize) := by unfold indexToState word; omega
  unfold final
  rw [e]
  rw [Bool.eq_iff_iff]
  simpa using ht

theorem Repr.after_eq (h : Repr s T) {q : Nat} {w : List Nat} (hq : q < T.n) (hw : ∀ c ∈ w, IsLetter c) :
    s.scn.after (s.indexToState q) w = s.indexToState (T.after q w) := by
  induction w generalizing q with
  | nil => rfl
  | cons c w ih =>
    have hc := hw c (by simp)
    unfold Scn.after Tbl.after
    have e : s.scn.step (s.indexToState q) c = s.indexToState (T.step q c) := h.next_eq hq hc
    rw [List.foldl_cons, List.foldl_cons, e]
    exact ih (h.wf.step_lt hq hc) fun c hc => hw c (by simp [hc])

theorem row_lt {n q : Nat} (h : q < n) : q * 265 + 265 ≤ 265 * n := by omega

/-- `Next` and `Final` read inside the block. -/
theorem Repr.in_block (h : Repr s T) {q c : Nat} (hq : q < T.n) (hc : c < MaxChar) :
    s.base ≤ s.indexToState q - 8 ∧ s.indexToState q + 8 * c + 8 ≤ s.base + bufSize s.statesCount := by
  have hM : MaxChar = 264 := rfl
  rw [h.states]
  have := row_lt hq
  unfold indexToState word bufSize rowSize
  rw [hM] at hc ⊢
  omega

/-! ### Compiling -/

theorem foldl_flatMap' {α β γ : Type} (f : γ → β → γ) (g : α → List β) (l : List α) (s : γ) :
    l.foldl (fun s a => (g a).foldl f s) s = (l.flatMap g).foldl f s := by
  induction l generalizing s with
  | nil => rfl
  | cons a l ih => rw [List.foldl_cons, ih, List.flatMap_cons, List.foldl_append]

/-- The stores of the constructor. -/
def compileWrites (f : Fsm) : List (Nat × Nat) :=
  (List.range f.size).map (fun q => (q * rowSize, (f.tags q).getD 0 ||| if f.isFinal q then 1 else 0)) ++
  (List.range f.size).flatMap fun fr => f.letters.set.flatMap fun e => e.members.flatMap fun l =>
    (elems (f.destinations fr e.rep)).map fun dest => (fr * rowSize + 1 + l, (dest + 2 ^ 64 - fr) % 2 ^ 64 * rowSize * 8 % 2 ^ 64)

/-- The block before them. -/
def start (base : Nat) (f : Fsm) : Simple :=
  { statesCount := f.size, initial := word base (f.initial * rowSize + 1), base := base, mem := fun _ => 0, empty := false }

theorem compileCanonized_eq (base : Nat) (f : Fsm) : compileCanonized base f = (start base f).writes (compileWrites f) := by
  unfold compileCanonized compileWrites writes
  simp only
  rw [List.foldl_append, List.foldl_map, ← foldl_flatMap']
  simp only [← foldl_flatMap', List.foldl_map]
  rfl

theorem mem_compileWrites {f : Fsm} {x : Nat × Nat} : x ∈ compileWrites f ↔
    (∃ q < f.size, x = (q * rowSize, (f.tags q).getD 0 ||| if f.isFinal q then 1 else 0)) ∨
    ∃ fr < f.size, ∃ e ∈ f.letters.set, ∃ l ∈ e.members, ∃ dest ∈ elems (f.destinations fr e.rep),
      x = (fr * rowSize + 1 + l, (dest + 2 ^ 64 - fr) % 2 ^ 64 * rowSize * 8 % 2 ^ 64) := by
  unfold compileWrites
  simp only [List.mem_append, List.mem_map, List.mem_range, List.mem_flatMap]
  constructor
  · rintro (⟨q, hq, rfl⟩ | ⟨fr, hfr, e, he, l, hl, d, hd, rfl⟩)
    · exact .inl ⟨q, hq, rfl⟩
    · exact .inr ⟨fr, hfr, e, he, l, hl, d, hd, rfl⟩
  · rintro (⟨q, hq, rfl⟩ | ⟨fr, hfr, e, he, l, hl, d, hd, rfl⟩)
    · exact .inl ⟨q, hq, rfl⟩
    · exact .inr ⟨fr, hfr, e, he, l, hl, d, hd, rfl⟩

theorem index_inj {q l q' l' : Nat} (hl : l < 264) (hl' : l' < 264) (h : q * rowSize + 1 + l = q' * rowSize + 1 + l') :
    q = q' ∧ l = l' := by
  have hM : MaxChar = 264 := rfl
  unfold rowSize at h
  rw [hM] at h
  omega

theorem index_tag {q q' l' : Nat} (hl' : l' < 264) (h : q * rowSize = q' * rowSize + 1 + l') : False := by
  have hM : MaxChar = 264 := rfl
  unfold rowSize at h
  rw [hM] at h
  omega

theorem compileCanonized_repr {f : Fsm} {base : Nat} (h : f.Det) (ht : f.TagsIn (· = 0)) (ha : base % 8 = 0)
    (hs : base + bufSize f.size ≤ 2 ^ 64) :
    Repr (compileCanonized base f) (tblOf f) ∧ (compileCanonized base f).empty = false ∧ (compileCanonized base f).base = base ∧
    (compileCanonized base f).statesCount = f.size := by
  rw [compileCanonized_eq]
  obtain ⟨r1, r2, r3, r4⟩ := writes_rest (start base f) (compileWrites f)
  have hlt : ∀ e ∈ f.letters.set, ∀ l ∈ e.members, l < 264 := fun e he l hl =>
    ((h.all l).1 (by rw [h.wf.let_wf.inv_of_mem he hl]; rfl)).1
  have htag : f.TagsClean := fun q t hq => by rw [ht q t hq]
  refine ⟨⟨tblOf_wf h, by rw [r3]; exact ha, by rw [r3, r1]; exact hs, r1, ?_, ?_, ?_⟩, r4, r3, r1⟩
  · rw [r2]; unfold indexToState; rw [r3]; rfl
  · intro q hq c hc
    have hq' : q < f.size := hq
    obtain ⟨e, he, hm⟩ := h.mem_class hc
    have hstep : (tblOf f).step q c = f.firstDst q e.rep := by
      have : (tblOf f).step q c = f.cdelta q ((f.letters.index c).getD 0) := rfl
      rw [this, h.wf.let_wf.index_eq he hm, Option.getD_some, Fsm.cdelta_eq h.wf he]
    rw [r3, hstep]
    have hval : ∀ v, (q * rowSize + 1 + c, v) ∈ compileWrites f → v = (f.firstDst q e.rep + 2 ^ 64 - q) % 2 ^ 64 * rowSize * 8 % 2 ^ 64 := by
      intro v hv
      rcases mem_compileWrites.1 hv with ⟨q', hq2, e2⟩ | ⟨fr, hfr, e', he', l, hl, d, hd, e2⟩
      · rw [Prod.mk.injEq] at e2
        exact (index_tag hc.1 e2.1.symm).elim
      · rw [Prod.mk.injEq] at e2
        obtain ⟨rfl, rfl⟩ := index_inj hc.1 (hlt e' he' l hl) e2.1
        have hee : e' = e := h.wf.let_wf.class_unique' he' he hl hm
        subst hee
        rw [h.elems_dst hfr he', List.mem_singleton] at hd
        rw [e2.2, hd]
    have hin : (q * rowSize + 1 + c, (f.firstDst q e.rep + 2 ^ 64 - q) % 2 ^ 64 * rowSize * 8 % 2 ^ 64) ∈ compileWrites f :=
      mem_compileWrites.2 (.inr ⟨q, hq', e, he, c, hm, f.firstDst q e.rep, by rw [h.elems_dst hq' he]; simp, rfl⟩)
    have := (read_writes (fun v v' hv hv' => (hval v hv).trans (hval v' hv').symm) (start base f)).1 _ hin
    rw [show (start base f).base = base from rfl] at this
    refine this.trans ?_
    exact Nat.mod_mod _ _
  · intro q hq
    have hq' : q < f.size := hq
    rw [r3]
    have hval : ∀ v, (q * rowSize, v) ∈ compileWrites f → v = ((f.tags q).getD 0 ||| if f.isFinal q then 1 else 0) := by
      intro v hv
      rcases mem_compileWrites.1 hv with ⟨q', hq2, e2⟩ | ⟨fr, hfr, e', he', l, hl, d, hd, e2⟩
      · rw [Prod.mk.injEq] at e2
        have : q = q' := Nat.eq_of_mul_eq_mul_right (show 0 < rowSize by unfold rowSize; omega) e2.1
        rw [e2.2, this]
      · rw [Prod.mk.injEq] at e2
        exact (index_tag (hlt e' he' l hl) e2.1).elim
    have hin : (q * rowSize, (f.tags q).getD 0 ||| if f.isFinal q then 1 else 0) ∈ compileWrites f :=
      mem_compileWrites.2 (.inl ⟨q, hq', rfl⟩)
    have := (read_writes (fun v v' hv hv' => (hval v hv).trans (hval v' hv').symm) (start base f)).1 _ hin
    rw [show (start base f).base = base from rfl] at this
    have e3 : Scn.readLE ((start base f).writes (compileWrites f)).mem (word (start base f).base (q * rowSize)) 8 = _ := this
    rw [e3]
    have h0 : (f.tags q).getD 0 = 0 := by
      cases hq : f.tags q with
      | none => rfl
      | some t => exact ht q t hq
    rw [h0, Nat.zero_or]
    show _ ↔ Multi.tagOf f f.deadStates q &&& 1 ≠ 0
    rw [(Multi.tagOf_bits htag f.deadStates q).1]
    unfold Fsm.isFinal
    by_cases hf : q ∈ f.finals <;> simp [hf]

end Simple
end Pire
