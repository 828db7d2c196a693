import Verif.Proofs.Run
import Verif.Proofs.Partition

/-! # The well-formedness invariant and the effect of the elementary operations -/

namespace Pire
namespace Fsm

/-- No state number outside of the table is ever stored, and keys are letters or epsilon. -/
structure WF (f : Fsm) : Prop where
  init_lt : f.initial < f.size
  fin_lt : ∀ q ∈ f.finals, q < f.size
  tr_lt : ∀ q c S, f.tr q c = some S → q < f.size ∧ c < 264 ∧ ∀ p ∈ S, p < f.size
  let_wf : f.letters.WF
  let_lt : ∀ c r, f.letters.inv c = some r → c < 264 ∧ c ≠ 257

/-- Letters are not packed. -/
def Raw (f : Fsm) : Prop := f.letters = Partition.empty

/-- A packed automaton stores, for a letter that is not a representative, either nothing or the same targets. -/
def Coh (f : Fsm) : Prop := ∀ q c r, f.letters.inv c = some r → f.tr q c = none ∨ f.tr q c = f.tr q r

theorem Raw.coh {f : Fsm} (h : f.Raw) : f.Coh := by
  intro q c r hc; rw [h] at hc; simp [Partition.empty] at hc

/-- The key under which the targets of a letter are stored. -/
def key (f : Fsm) (c : Nat) : Nat := if c = 257 then 257 else f.letters.repOr c

theorem eff_eq (f : Fsm) (q c : Nat) : f.eff q c = f.dst q (f.key c) := by
  unfold eff key; split <;> simp_all

theorem edge_iff {f : Fsm} {q c p : Nat} : f.Edge q c p ↔ p ∈ f.dst q (f.key c) := by
  unfold Edge; rw [eff_eq]

@[simp] theorem key_eps (f : Fsm) : f.key 257 = 257 := by simp [key]

theorem key_raw {f : Fsm} (h : f.Raw) (c : Nat) : f.key c = c := by
  unfold key; rw [h]; simp [Partition.empty, Partition.repOr]; exact fun h => h.symm

theorem WF.rep_lt {f : Fsm} (h : f.WF) {c r : Nat} (hc : f.letters.inv c = some r) : r < 264 ∧ r ≠ 257 :=
  h.let_lt r r (h.let_wf.inv_rep hc)

theorem WF.key_ne {f : Fsm} (h : f.WF) {c : Nat} (hc : c ≠ 257) : f.key c ≠ 257 := by
  unfold key; rw [if_neg hc]
  rcases h.let_wf.repOr_mem (c := c) with h1 | h1
  · exact (h.rep_lt h1).2
  · rw [h1]; exact hc

theorem WF.key_eq_eps {f : Fsm} (h : f.WF) {c : Nat} : f.key c = 257 ↔ c = 257 := by
  constructor
  · intro hk; by_contra hc; exact h.key_ne hc hk
  · rintro rfl; simp

theorem WF.key_lt_iff {f : Fsm} (h : f.WF) {c : Nat} : f.key c < 264 ↔ c < 264 := by
  unfold key
  split
  · simp_all
  · unfold Partition.repOr
    cases hc : f.letters.inv c with
    | none => simp
    | some r => simp [(h.rep_lt hc).1, (h.let_lt c r hc).1]

theorem mem_dst {f : Fsm} {q c p : Nat} : p ∈ f.dst q c ↔ ∃ S, f.tr q c = some S ∧ p ∈ S := by
  unfold dst
  cases f.tr q c <;> simp

theorem WF.dst_lt {f : Fsm} (h : f.WF) {q c p : Nat} (hp : p ∈ f.dst q c) : q < f.size ∧ c < 264 ∧ p < f.size := by
  obtain ⟨S, hS, hp⟩ := mem_dst.1 hp
  have := h.tr_lt _ _ _ hS
  exact ⟨this.1, this.2.1, this.2.2 p hp⟩

theorem WF.edge_lt {f : Fsm} (h : f.WF) {q c p : Nat} (he : f.Edge q c p) : q < f.size ∧ c < 264 ∧ p < f.size := by
  have := h.dst_lt (edge_iff.1 he)
  exact ⟨this.1, h.key_lt_iff.1 this.2.1, this.2.2⟩

theorem WF.run_lt {f : Fsm} (h : f.WF) {q p : Nat} {w : List Nat} (hr : Run f.Edge q w p) (hq : q < f.size) :
    p < f.size := hr.closed (S := (· < f.size)) (fun _ _ _ _ e => (h.edge_lt e).2.2) hq

theorem WF.run_word {f : Fsm} (h : f.WF) {q p : Nat} {w : List Nat} (hr : Run f.Edge q w p) : Spec.IsWord w :=
  hr.letters (P := Spec.IsLetter) (fun _ _ _ e hc => ⟨(h.edge_lt e).2.1, hc⟩)

/-- Accepted words consist of letters. -/
theorem WF.lang_word {f : Fsm} (h : f.WF) {q : Nat} {w : List Nat} (hw : w ∈ f.LangFrom q) : Spec.IsWord w := by
  obtain ⟨p, _, hr⟩ := hw
  exact h.run_word hr

/-! ### Elementary operations -/

theorem dst_connect (f : Fsm) (q p c q' c' : Nat) :
    (f.connect q p c).dst q' c' = if q' = q ∧ c' = c then insert p (f.dst q c) else f.dst q' c' := by
  unfold connect dst
  simp only
  split <;> rfl

@[simp] theorem connect_size (f : Fsm) (q p c : Nat) : (f.connect q p c).size = f.size := rfl
@[simp] theorem connect_initial (f : Fsm) (q p c : Nat) : (f.connect q p c).initial = f.initial := rfl
@[simp] theorem connect_finals (f : Fsm) (q p c : Nat) : (f.connect q p c).finals = f.finals := rfl
@[simp] theorem connect_letters (f : Fsm) (q p c : Nat) : (f.connect q p c).letters = f.letters := rfl
@[simp] theorem connect_isAlt (f : Fsm) (q p c : Nat) : (f.connect q p c).isAlt = false := rfl
@[simp] theorem connect_sparsed (f : Fsm) (q p c : Nat) : (f.connect q p c).sparsed = f.sparsed := rfl
@[simp] theorem connect_determined (f : Fsm) (q p c : Nat) : (f.connect q p c).determined = f.determined := rfl
@[simp] theorem connect_outputs (f : Fsm) (q p c : Nat) : (f.connect q p c).outputs = f.outputs := rfl
@[simp] theorem connect_tags (f : Fsm) (q p c : Nat) : (f.connect q p c).tags = f.tags := rfl

theorem connectAll_cons (f : Fsm) (t : Nat × Nat × Nat) (l : List (Nat × Nat × Nat)) :
    f.connectAll (t :: l) = (f.connect t.1 t.2.1 t.2.2).connectAll l := rfl

@[simp] theorem connectAll_nil (f : Fsm) : f.connectAll [] = f := rfl

@[simp] theorem connectAll_size (f : Fsm) (l) : (f.connectAll l).size = f.size := by
  induction l generalizing f with
  | nil => rfl
  | cons t l ih => rw [connectAll_cons, ih]; rfl
@[simp] theorem connectAll_initial (f : Fsm) (l) : (f.connectAll l).initial = f.initial := by
  induction l generalizing f with
  | nil => rfl
  | cons t l ih => rw [connectAll_cons, ih]; rfl
@[simp] theorem connectAll_finals (f : Fsm) (l) : (f.connectAll l).finals = f.finals := by
  induction l generalizing f with
  | nil => rfl
  | cons t l ih => rw [connectAll_cons, ih]; rfl
@[simp] theorem connectAll_letters (f : Fsm) (l) : (f.connectAll l).letters = f.letters := by
  induction l generalizing f with
  | nil => rfl
  | cons t l ih => rw [connectAll_cons, ih]; rfl
@[simp] theorem connectAll_sparsed (f : Fsm) (l) : (f.connectAll l).sparsed = f.sparsed := by
  induction l generalizing f with
  | nil => rfl
  | cons t l ih => rw [connectAll_cons, ih]; rfl
@[simp] theorem connectAll_determined (f : Fsm) (l) : (f.connectAll l).determined = f.determined := by
  induction l generalizing f with
  | nil => rfl
  | cons t l ih => rw [connectAll_cons, ih]; rfl
@[simp] theorem connectAll_outputs (f : Fsm) (l) : (f.connectAll l).outputs = f.outputs := by
  induction l generalizing f with
  | nil => rfl
  | cons t l ih => rw [connectAll_cons, ih]; rfl
@[simp] theorem connectAll_tags (f : Fsm) (l) : (f.connectAll l).tags = f.tags := by
  induction l generalizing f with
  | nil => rfl
  | cons t l ih => rw [connectAll_cons, ih]; rfl
theorem connectAll_isAlt (f : Fsm) (l) (h : l ≠ []) : (f.connectAll l).isAlt = false := by
  cases l with
  | nil => exact absurd rfl h
  | cons t l =>
    rw [connectAll_cons]
    have : ∀ (l) (g : Fsm), g.isAlt = false → (g.connectAll l).isAlt = false := by
      intro l
      induction l with
      | nil => exact fun g h => h
      | cons t l ih => intro g _; rw [connectAll_cons]; exact ih _ rfl
    exact this l _ rfl

theorem mem_dst_connectAll {f : Fsm} {l : List (Nat × Nat × Nat)} {q c x : Nat} :
    x ∈ (f.connectAll l).dst q c ↔ x ∈ f.dst q c ∨ (q, x, c) ∈ l := by
  induction l generalizing f with
  | nil => simp
  | cons t l ih =>
    obtain ⟨a, b, d⟩ := t
    rw [connectAll_cons, ih, dst_connect]
    simp only [List.mem_cons, Prod.mk.injEq]
    split
    · rename_i h; obtain ⟨rfl, rfl⟩ := h
      simp only [Finset.mem_insert, true_and, and_true]; tauto
    · rename_i h
      constructor
      · rintro (h | h) <;> simp [h]
      · rintro (h1 | ⟨rfl, rfl, rfl⟩ | h1)
        · exact .inl h1
        · exact absurd ⟨rfl, rfl⟩ h
        · exact .inr h1

theorem tr_connectAll_isSome {f : Fsm} {l : List (Nat × Nat × Nat)} {q c : Nat} :
    ((f.connectAll l).tr q c).isSome = true ↔ (f.tr q c).isSome = true ∨ ∃ x, (q, x, c) ∈ l := by
  induction l generalizing f with
  | nil => simp
  | cons t l ih =>
    obtain ⟨a, b, d⟩ := t
    rw [connectAll_cons, ih]
    simp only [List.mem_cons, Prod.mk.injEq, connect]
    split
    · rename_i h; obtain ⟨rfl, rfl⟩ := h
      simp only [Option.isSome_some, true_or, true_and, and_true, true_iff]
      exact .inr ⟨b, .inl rfl⟩
    · rename_i h
      constructor
      · rintro (h | ⟨x, h⟩)
        · exact .inl h
        · exact .inr ⟨x, .inr h⟩
      · rintro (h1 | ⟨x, ⟨rfl, rfl, rfl⟩ | h1⟩)
        · exact .inl h1
        · exact absurd ⟨rfl, rfl⟩ h
        · exact .inr ⟨x, h1⟩

theorem tr_connectAll_of_forall_ne {f : Fsm} {l : List (Nat × Nat × Nat)} {q c : Nat}
    (h : ∀ x, (q, x, c) ∉ l) : (f.connectAll l).tr q c = f.tr q c := by
  induction l generalizing f with
  | nil => rfl
  | cons t l ih =>
    obtain ⟨a, b, d⟩ := t
    rw [connectAll_cons, ih (fun x hx => h x (by simp [hx]))]
    simp only [connect]
    rw [if_neg]
    rintro ⟨rfl, rfl⟩
    exact h b (by simp)

theorem WF.connectAll {f : Fsm} (h : f.WF) {l : List (Nat × Nat × Nat)}
    (hl : ∀ q p c, (q, p, c) ∈ l → q < f.size ∧ p < f.size ∧ c < 264) : (f.connectAll l).WF := by
  constructor
  · simpa using h.init_lt
  · simpa using h.fin_lt
  · intro q c S hS
    rw [connectAll_size]
    have hmem : ∀ p ∈ S, p < f.size := by
      intro p hp
      have hd : p ∈ (f.connectAll l).dst q c := mem_dst.2 ⟨S, hS, hp⟩
      rcases mem_dst_connectAll.1 hd with h1 | h1
      · exact (h.dst_lt h1).2.2
      · exact (hl _ _ _ h1).2.1
    have hsome : ((f.connectAll l).tr q c).isSome = true := by rw [hS]; rfl
    rcases tr_connectAll_isSome.1 hsome with h1 | ⟨x, hx⟩
    · obtain ⟨S', hS'⟩ := Option.isSome_iff_exists.1 h1
      exact ⟨(h.tr_lt _ _ _ hS').1, (h.tr_lt _ _ _ hS').2.1, hmem⟩
    · exact ⟨(hl _ _ _ hx).1, (hl _ _ _ hx).2.2, hmem⟩
  · simpa using h.let_wf
  · simpa using h.let_lt

theorem connect_eq_connectAll (f : Fsm) (q p c : Nat) : f.connect q p c = f.connectAll [(q, p, c)] := rfl

theorem WF.connect {f : Fsm} (h : f.WF) {q p c : Nat} (hq : q < f.size) (hp : p < f.size) (hc : c < 264) :
    (f.connect q p c).WF := by
  rw [connect_eq_connectAll]
  apply h.connectAll
  intro q' p' c' hm
  simp only [List.mem_singleton, Prod.mk.injEq] at hm
  obtain ⟨rfl, rfl, rfl⟩ := hm
  exact ⟨hq, hp, hc⟩

theorem WF.dst_of_ge {f : Fsm} (h : f.WF) {q c : Nat} (hq : f.size ≤ q) : f.dst q c = ∅ := by
  ext p
  simp only [Finset.notMem_empty, iff_false]
  intro hp
  have := (h.dst_lt hp).1
  omega

theorem WF.tr_of_ge {f : Fsm} (h : f.WF) {q c : Nat} (hq : f.size ≤ q) : f.tr q c = none := by
  cases ht : f.tr q c with
  | none => rfl
  | some S => have := (h.tr_lt _ _ _ ht).1; omega

theorem WF.resize_tr {f : Fsm} (h : f.WF) {n : Nat} (hn : f.size ≤ n) : (f.resize n).tr = f.tr := by
  funext q c
  simp only [resize]
  split
  · rfl
  · rw [h.tr_of_ge (by omega)]

theorem WF.resize {f : Fsm} (h : f.WF) {n : Nat} (hn : f.size ≤ n) : (f.resize n).WF := by
  constructor
  · exact lt_of_lt_of_le h.init_lt hn
  · exact fun q hq => lt_of_lt_of_le (h.fin_lt q hq) hn
  · intro q c S hS
    rw [h.resize_tr hn] at hS
    have := h.tr_lt _ _ _ hS
    exact ⟨lt_of_lt_of_le this.1 hn, this.2.1, fun p hp => lt_of_lt_of_le (this.2.2 p hp) hn⟩
  · exact h.let_wf
  · exact h.let_lt

@[simp] theorem resize_size (f : Fsm) (n) : (f.resize n).size = n := rfl
@[simp] theorem resize_initial (f : Fsm) (n) : (f.resize n).initial = f.initial := rfl
@[simp] theorem resize_finals (f : Fsm) (n) : (f.resize n).finals = f.finals := rfl
@[simp] theorem resize_letters (f : Fsm) (n) : (f.resize n).letters = f.letters := rfl

/-- The automata that agree on everything a run can see. -/
theorem WF.congr {f g : Fsm} (h : f.WF) (hs : g.size = f.size) (hi : g.initial < g.size)
    (hf : ∀ q ∈ g.finals, q < g.size) (ht : g.tr = f.tr) (hl : g.letters = f.letters) : g.WF := by
  constructor
  · exact hi
  · exact hf
  · rw [ht, hs]; exact h.tr_lt
  · rw [hl]; exact h.let_wf
  · rw [hl]; exact h.let_lt

theorem key_congr {f g : Fsm} (hl : g.letters = f.letters) (c : Nat) : g.key c = f.key c := by
  unfold key; rw [hl]

theorem dst_congr {f g : Fsm} (ht : g.tr = f.tr) (q c : Nat) : g.dst q c = f.dst q c := by
  unfold dst; rw [ht]

theorem edge_congr {f g : Fsm} (ht : g.tr = f.tr) (hl : g.letters = f.letters) : g.Edge = f.Edge := by
  funext q c p
  rw [eq_iff_iff, edge_iff, edge_iff, key_congr hl, dst_congr ht]

theorem edge_connectAll {f : Fsm} {l : List (Nat × Nat × Nat)} {q c p : Nat} :
    (f.connectAll l).Edge q c p ↔ f.Edge q c p ∨ (q, p, f.key c) ∈ l := by
  rw [edge_iff, edge_iff, key_congr (connectAll_letters f l), mem_dst_connectAll]

theorem edge_connect {f : Fsm} {a b d : Nat} {q c p : Nat} :
    (f.connect a b d).Edge q c p ↔ f.Edge q c p ∨ (q = a ∧ p = b ∧ f.key c = d) := by
  rw [connect_eq_connectAll, edge_connectAll]; simp

/-! `ConnectFinal` -/

theorem edge_clearHints (f : Fsm) : f.clearHints.Edge = f.Edge := edge_congr rfl rfl

@[simp] theorem connectFinal_size (f : Fsm) (p c) : (f.connectFinal p c).size = f.size := by
  simp [connectFinal, clearHints]
@[simp] theorem connectFinal_initial (f : Fsm) (p c) : (f.connectFinal p c).initial = f.initial := by
  simp [connectFinal, clearHints]
@[simp] theorem connectFinal_finals (f : Fsm) (p c) : (f.connectFinal p c).finals = f.finals := by
  simp [connectFinal, clearHints]
@[simp] theorem connectFinal_letters (f : Fsm) (p c) : (f.connectFinal p c).letters = f.letters := by
  simp [connectFinal, clearHints]
@[simp] theorem connectFinal_sparsed (f : Fsm) (p c) : (f.connectFinal p c).sparsed = f.sparsed := by
  simp [connectFinal, clearHints]
@[simp] theorem connectFinal_isAlt (f : Fsm) (p c) : (f.connectFinal p c).isAlt = false := rfl

theorem mem_dst_connectFinal {f : Fsm} {a d q c p : Nat} :
    p ∈ (f.connectFinal a d).dst q c ↔ p ∈ f.dst q c ∨ (q ∈ f.finals ∧ p = a ∧ c = d) := by
  have : (f.connectFinal a d).dst q c = (f.connectAll ((elems f.finals).map fun q => (q, a, d))).dst q c := rfl
  rw [this, mem_dst_connectAll]
  simp only [List.mem_map, Prod.mk.injEq, mem_elems]
  constructor
  · rintro (h | ⟨x, hx, rfl, rfl, rfl⟩)
    · exact .inl h
    · exact .inr ⟨hx, rfl, rfl⟩
  · rintro (h | ⟨hx, rfl, rfl⟩)
    · exact .inl h
    · exact .inr ⟨q, hx, rfl, rfl, rfl⟩

theorem edge_connectFinal {f : Fsm} {a d q c p : Nat} :
    (f.connectFinal a d).Edge q c p ↔ f.Edge q c p ∨ (q ∈ f.finals ∧ p = a ∧ f.key c = d) := by
  rw [edge_iff, edge_iff, mem_dst_connectFinal, key_congr (connectFinal_letters f a d)]

theorem WF.connectFinal {f : Fsm} (h : f.WF) {p c : Nat} (hp : p < f.size) (hc : c < 264) :
    (f.connectFinal p c).WF := by
  have h1 : (f.connectAll ((elems f.finals).map fun q => (q, p, c))).WF := by
    apply h.connectAll
    intro q p' c' hm
    simp only [List.mem_map, Prod.mk.injEq, mem_elems] at hm
    obtain ⟨x, hx, rfl, rfl, rfl⟩ := hm
    exact ⟨h.fin_lt _ hx, hp, hc⟩
  exact h1.congr rfl h1.init_lt h1.fin_lt rfl rfl

theorem WF.mk_finals {f : Fsm} (h : f.WF) {s : Finset Nat} (hs : ∀ q ∈ s, q < f.size) :
    ({ f with finals := s } : Fsm).WF := h.congr rfl h.init_lt hs rfl rfl

theorem WF.setFinal {f : Fsm} (h : f.WF) {q : Nat} {b : Bool} (hq : q < f.size) : (f.setFinal q b).WF := by
  apply h.mk_finals
  intro p hp
  split at hp
  · rcases Finset.mem_insert.1 hp with rfl | hp
    · exact hq
    · exact h.fin_lt p hp
  · exact h.fin_lt p (Finset.mem_of_mem_erase hp)

theorem WF.clearFinal {f : Fsm} (h : f.WF) : f.clearFinal.WF := h.mk_finals (by simp)

theorem WF.init : Fsm.init.WF := by
  constructor
  · simp [Fsm.init]
  · simp [Fsm.init]
  · simp [Fsm.init]
  · exact Partition.WF.empty
  · simp [Fsm.init, Partition.empty]

theorem WF.makeFalse : Fsm.makeFalse.WF := WF.init.setFinal (by simp [Fsm.init])

/-! Rows -/

theorem mem_rowKeys {row : Nat → Option (Finset Nat)} {c : Nat} :
    c ∈ rowKeys row ↔ c < 264 ∧ (row c).isSome = true := by
  simp [rowKeys]

theorem mem_rowEdges {row : Nat → Option (Finset Nat)} {c p : Nat} :
    (c, p) ∈ rowEdges row ↔ c < 264 ∧ p ∈ (row c).getD ∅ := by
  unfold rowEdges
  simp only [List.mem_flatMap, mem_rowKeys, List.mem_map, Prod.mk.injEq, mem_elems]
  constructor
  · rintro ⟨c', ⟨h1, h2⟩, p', hp, rfl, rfl⟩
    exact ⟨h1, hp⟩
  · rintro ⟨h1, h2⟩
    refine ⟨c, ⟨h1, ?_⟩, p, h2, rfl, rfl⟩
    cases hr : row c with
    | none => simp [hr] at h2
    | some => rfl

end Fsm
end Pire
