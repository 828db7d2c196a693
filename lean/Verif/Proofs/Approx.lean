import Verif.Model.Approx
import Verif.Spec.Approx
import Verif.Proofs.Tags
import Verif.Proofs.FsmImport

/-!
# The automaton of `CreateApproxFsm`
-/

namespace Pire
open Spec
namespace Fsm

/-- `g'` is `g` with the edges `X` and the final states `Y` added. -/
structure Ext (g g' : Fsm) (X : Nat → Nat → Nat → Prop) (Y : Nat → Prop) : Prop where
  size : g'.size = g.size
  initial : g'.initial = g.initial
  letters : g'.letters = g.letters
  sparsed : g'.sparsed = g.sparsed
  determined : g'.determined = g.determined
  tags : g'.tags = g.tags
  alt : g'.isAlt = true → g.isAlt = true ∧ ∀ x c y, ¬ X x c y
  wf : g.WF → g'.WF
  dst : ∀ x c y, y ∈ g'.dst x c ↔ y ∈ g.dst x c ∨ X x c y
  fin : ∀ x, x ∈ g'.finals ↔ x ∈ g.finals ∨ Y x

theorem Ext.refl (g : Fsm) : Ext g g (fun _ _ _ => False) (fun _ => False) :=
  ⟨rfl, rfl, rfl, rfl, rfl, rfl, fun h => ⟨h, fun _ _ _ h => h⟩, id, fun _ _ _ => by simp, fun _ => by simp⟩

theorem Ext.trans {g g' g'' : Fsm} {X X' Y Y'} (h : Ext g g' X Y) (h' : Ext g' g'' X' Y') :
    Ext g g'' (fun x c y => X x c y ∨ X' x c y) (fun x => Y x ∨ Y' x) := by
  refine ⟨h'.size.trans h.size, h'.initial.trans h.initial, h'.letters.trans h.letters, h'.sparsed.trans h.sparsed,
    h'.determined.trans h.determined, h'.tags.trans h.tags, fun ha => ?_, fun hw => h'.wf (h.wf hw), fun x c y => ?_, fun x => ?_⟩
  · obtain ⟨h1, h2⟩ := h'.alt ha
    obtain ⟨h3, h4⟩ := h.alt h1
    exact ⟨h3, fun x c y hx => hx.elim (h4 x c y) (h2 x c y)⟩
  · rw [h'.dst, h.dst, or_assoc]
  · rw [h'.fin, h.fin, or_assoc]

theorem Ext.congr {g g' : Fsm} {X X' Y Y'} (h : Ext g g' X Y) (hX : ∀ x c y, X x c y ↔ X' x c y) (hY : ∀ x, Y x ↔ Y' x) : Ext g g' X' Y' := by
  have e1 : X = X' := by funext x c y; exact propext (hX x c y)
  have e2 : Y = Y' := by funext x; exact propext (hY x)
  rw [← e1, ← e2]; exact h

/-- A loop whose body adds edges, as long as an invariant holds that added edges do not break. -/
theorem Ext.fold {β : Type} {F : Fsm → β → Fsm} {J : Fsm → Prop} {X : β → Nat → Nat → Nat → Prop} {Y : β → Nat → Prop} (l : List β)
    (hF : ∀ a ∈ l, ∀ g, J g → Ext g (F g a) (X a) (Y a)) (hJ : ∀ a ∈ l, ∀ g, J g → J (F g a)) (g : Fsm) (hg : J g) :
    Ext g (l.foldl F g) (fun x c y => ∃ a ∈ l, X a x c y) (fun x => ∃ a ∈ l, Y a x) := by
  induction l generalizing g with
  | nil => exact (Ext.refl g).congr (by simp) (by simp)
  | cons a l ih =>
    rw [List.foldl_cons]
    have h1 := hF a (by simp) g hg
    have h2 := ih (fun b hb => hF b (by simp [hb])) (fun b hb => hJ b (by simp [hb])) _ (hJ a (by simp) g hg)
    exact (h1.trans h2).congr (by simp) (by simp)

theorem Ext.connect {g : Fsm} {q p c : Nat} (hq : q < g.size) (hp : p < g.size) (hc : c < 264) :
    Ext g (g.connect q p c) (fun x d y => x = q ∧ d = c ∧ y = p) (fun _ => False) := by
  refine ⟨rfl, rfl, rfl, rfl, rfl, rfl, fun h => (by cases h), fun hw => hw.connect hq hp hc, fun x d y => ?_, fun x => by simp⟩
  rw [dst_connect]
  split
  · rename_i h; rw [h.1, h.2, Finset.mem_insert]; tauto
  · rename_i h; tauto

theorem Ext.setFinal {g : Fsm} {q : Nat} (hq : q < g.size) : Ext g (g.setFinal q true) (fun _ _ _ => False) (fun x => x = q) := by
  refine ⟨rfl, rfl, rfl, rfl, rfl, rfl, fun h => ⟨h, fun _ _ _ h => h⟩, fun hw => ?_, fun x d y => by simp [Fsm.dst, Fsm.setFinal], fun x => ?_⟩
  · refine hw.congr rfl hw.init_lt (fun x hx => ?_) rfl rfl
    have hx : x ∈ insert q g.finals := hx
    rcases Finset.mem_insert.1 hx with rfl | hx
    · exact hq
    · exact hw.fin_lt x hx
  · change x ∈ insert q g.finals ↔ _
    rw [Finset.mem_insert, or_comm]

/-- Some letter or epsilon leads from `q` to `p`. -/
def Leads (f : Fsm) (q p : Nat) : Prop := ∃ l, p ∈ f.dst q l

/-- The row of `q` has an entry. -/
def Busy (f : Fsm) (q : Nat) : Prop := ∃ l, (f.tr q l).isSome = true

/-- The letter whose edges the test `Connected(from, to, c)` looks up: once the letter classes are gone, `Translate` of a sparse automaton
makes 0 of every letter. -/
def probe (f : Fsm) (c : Nat) : Nat := if f.sparsed = true ∧ c ≠ 257 then 0 else c

/-- The edges from one copy of the automaton to the next. -/
def Cross (f : Fsm) (q c p : Nat) : Prop :=
  c < 264 ∧ ((f.Leads q p ∧ (¬ f.Edge q (f.probe c) p ∨ c = 257)) ∨ (p = q ∧ f.Busy q))

/-- `Destinations` of a letter with an entry returns the entry. -/
def Direct (f : Fsm) : Prop := ∀ q l, (f.tr q l).isSome = true → f.destinations q l = f.dst q l

/-- The invariant of the loops over the states of layer `k`. -/
structure Mid (f : Fsm) (k : Nat) (g : Fsm) : Prop where
  wf : g.WF
  size : g.size = (k + 2) * f.size
  sparsed : g.sparsed = f.sparsed
  raw : g.Raw
  inner : ∀ q c p, q < f.size → p < f.size → (p + k * f.size ∈ g.dst (q + k * f.size) c ↔ f.Edge q c p)

theorem Mid.ext {f g g' : Fsm} {k : Nat} {X Y} (h : Mid f k g) (he : Ext g g' X Y) (hX : ∀ x c y, X x c y → (k + 1) * f.size ≤ y) : Mid f k g' := by
  refine ⟨he.wf h.wf, he.size.trans h.size, he.sparsed.trans h.sparsed, he.letters.trans h.raw, fun q c p hq hp => ?_⟩
  rw [he.dst, h.inner q c p hq hp]
  constructor
  · rintro (h1 | h1)
    · exact h1
    · have := hX _ _ _ h1
      rw [Nat.add_mul] at this
      omega
  · exact .inl

theorem elems_range {n x : Nat} : x ∈ List.range n ↔ x < n := List.mem_range

theorem outgoing_iff {f : Fsm} (h : f.WF) {q l : Nat} : l ∈ f.outgoingLetters q ↔ (f.tr q l).isSome = true := by
  unfold outgoingLetters rowKeys
  rw [List.mem_filter, List.mem_range]
  constructor
  · exact fun h => h.2
  · intro hs
    obtain ⟨S, hS⟩ := Option.isSome_iff_exists.1 hs
    exact ⟨(h.tr_lt _ _ _ hS).2.1, hs⟩

theorem direct_unsparsed {f : Fsm} (h : f.sparsed = false) : f.Direct := by
  intro q c _
  unfold destinations translate
  simp [h]

theorem Mid.connected_iff {f g : Fsm} {k q p c : Nat} (hg : Mid f k g) (hq : q < f.size) (hp : p < f.size) :
    g.connected (q + k * f.size) (p + k * f.size) c = true ↔ f.Edge q (f.probe c) p := by
  have ht : g.translate c = f.probe c := by
    unfold translate probe
    rw [hg.sparsed, hg.raw]
    by_cases hs : f.sparsed = true
    · by_cases hc : c = 257
      · simp [hc, Epsilon]
      · simp [hc, Epsilon, hs, Partition.representative, Partition.empty]
    · simp [hs]
  unfold connected destinations
  rw [ht, decide_eq_true_iff]
  exact hg.inner q _ p hq hp

section layer

variable {f : Fsm} {k : Nat}

theorem approxSubst_ext {q p : Nat} (hq : q < f.size) (hp : p < f.size) {g : Fsm} (hg : Mid f k g) :
    Ext g (approxSubst f.size (k * f.size) q p g)
      (fun x c y => x = q + k * f.size ∧ y = p + (k + 1) * f.size ∧ c < 264 ∧ ¬ f.Edge q (f.probe c) p) (fun _ => False) := by
  have e : p + k * f.size + f.size = p + (k + 1) * f.size := by rw [Nat.add_mul]; omega
  have hs : (k + 2) * f.size = k * f.size + f.size + f.size := by rw [Nat.add_mul]; omega
  have he : ∀ c ∈ List.range MaxChar, ∀ g, Mid f k g → Ext g
      (if !g.connected (q + k * f.size) (p + k * f.size) c then g.connect (q + k * f.size) (p + k * f.size + f.size) c else g)
      (fun x d y => x = q + k * f.size ∧ y = p + (k + 1) * f.size ∧ d = c ∧ ¬ f.Edge q (f.probe c) p) (fun _ => False) := by
    intro c hc g hg
    have hc : c < 264 := List.mem_range.1 hc
    have hcon := hg.connected_iff (c := c) hq hp
    have hsz := hg.size
    split
    · rename_i h
      have h' : ¬ f.Edge q (f.probe c) p := by rw [← hcon]; simpa using h
      rw [e]
      refine (Ext.connect (by omega) (by omega) hc).congr (fun x d y => ?_) (fun _ => Iff.rfl)
      tauto
    · rename_i h
      have h' : f.Edge q (f.probe c) p := by rw [← hcon]; simpa using h
      refine (Ext.refl g).congr (fun x d y => ?_) (fun _ => Iff.rfl)
      tauto
  refine (Ext.fold (J := Mid f k) _ he (fun c hc g hg => hg.ext (he c hc g hg) ?_) g hg).congr (fun x c y => ?_) (fun x => by simp)
  · rintro x d y ⟨-, rfl, -⟩; omega
  · constructor
    · rintro ⟨a, ha, h1, h2, rfl, h3⟩
      exact ⟨h1, h2, List.mem_range.1 ha, h3⟩
    · rintro ⟨h1, h2, h3, h4⟩
      exact ⟨c, List.mem_range.2 h3, h1, h2, rfl, h4⟩

theorem approxDest_ext {q p : Nat} (hq : q < f.size) (hp : p < f.size) {g : Fsm} (hg : Mid f k g) :
    Ext g (approxDest f.size (k * f.size) q g p)
      (fun x c y => x = q + k * f.size ∧ y = p + (k + 1) * f.size ∧ c < 264 ∧ (¬ f.Edge q (f.probe c) p ∨ c = 257)) (fun _ => False) := by
  have e : p + k * f.size + f.size = p + (k + 1) * f.size := by rw [Nat.add_mul]; omega
  have hs : (k + 2) * f.size = k * f.size + f.size + f.size := by rw [Nat.add_mul]; omega
  have h1 := approxSubst_ext (k := k) hq hp hg
  have hsz := h1.size.trans hg.size
  unfold approxDest
  rw [e]
  refine (h1.trans (Ext.connect (by omega) (by omega) (by decide))).congr (fun x c y => ?_) (fun x => by simp)
  constructor
  · rintro (⟨h1, h2, h3, h4⟩ | ⟨h1, rfl, h2⟩)
    · exact ⟨h1, h2, h3, .inl h4⟩
    · exact ⟨h1, h2, by decide, .inr rfl⟩
  · rintro ⟨h1, h2, h3, h4 | rfl⟩
    · exact .inl ⟨h1, h2, h3, h4⟩
    · exact .inr ⟨h1, rfl, h2⟩

theorem approxLetter_ext (hf : f.WF) (hns : f.Direct) {q l : Nat} (hq : q < f.size) (hl : (f.tr q l).isSome = true) {g : Fsm} (hg : Mid f k g) :
    Ext g (approxLetter f (k * f.size) q g l)
      (fun x c y => ∃ p, x = q + k * f.size ∧ y = p + (k + 1) * f.size ∧ c < 264 ∧
        ((p ∈ f.dst q l ∧ (¬ f.Edge q (f.probe c) p ∨ c = 257)) ∨ p = q)) (fun _ => False) := by
  have hs : (k + 2) * f.size = k * f.size + f.size + f.size := by rw [Nat.add_mul]; omega
  have e : q + k * f.size + f.size = q + (k + 1) * f.size := by rw [Nat.add_mul]; omega
  unfold approxLetter
  rw [hns q l hl, e]
  have a1 := fun p (hp : p ∈ elems (f.dst q l)) (g : Fsm) (hg : Mid f k g) => approxDest_ext hq (hf.dst_lt (mem_elems.1 hp)).2.2 hg
  have h1 := Ext.fold (J := Mid f k) _ a1 (fun p hp g hg => hg.ext (a1 p hp g hg) (by rintro x d y ⟨-, rfl, -⟩; omega)) g hg
  have hg1 : Mid f k _ := hg.ext h1 (by rintro x d y ⟨p, -, -, rfl, -⟩; omega)
  have a2 := fun c (hc : c ∈ List.range MaxChar) (g : Fsm) (hg : Mid f k g) => Ext.connect (g := g) (q := q + k * f.size)
    (p := q + (k + 1) * f.size) (by rw [hg.size]; omega) (by rw [hg.size]; omega) (List.mem_range.1 hc)
  have h2 := Ext.fold (J := Mid f k) _ a2 (fun c hc g hg => hg.ext (a2 c hc g hg) (by rintro x d y ⟨-, -, rfl⟩; omega)) _ hg1
  refine (h1.trans h2).congr (fun x c y => ?_) (fun x => by simp)
  constructor
  · rintro (⟨p, hp, h1, h2, h3, h4⟩ | ⟨d, hd, h1, rfl, h2⟩)
    · exact ⟨p, h1, h2, h3, .inl ⟨mem_elems.1 hp, h4⟩⟩
    · exact ⟨q, h1, h2, List.mem_range.1 hd, .inr rfl⟩
  · rintro ⟨p, b1, b2, b3, ⟨b4, b5⟩ | b4⟩
    · exact .inl ⟨p, mem_elems.2 b4, b1, b2, b3, b5⟩
    · exact .inr ⟨c, List.mem_range.2 b3, b1, rfl, by rw [b2, b4]⟩

theorem approxState_ext (hf : f.WF) (hns : f.Direct) {q : Nat} (hq : q < f.size) {g : Fsm} (hg : Mid f k g) :
    Ext g (approxState f (k * f.size) g q)
      (fun x c y => ∃ p, x = q + k * f.size ∧ y = p + (k + 1) * f.size ∧ f.Cross q c p) (fun x => q ∈ f.finals ∧ x = q + (k + 1) * f.size) := by
  have hs : (k + 2) * f.size = k * f.size + f.size + f.size := by rw [Nat.add_mul]; omega
  have e : q + k * f.size + f.size = q + (k + 1) * f.size := by rw [Nat.add_mul]; omega
  unfold approxState
  have a1 := fun l (hl : l ∈ f.outgoingLetters q) (g : Fsm) (hg : Mid f k g) => approxLetter_ext (l := l) hf hns hq ((outgoing_iff hf).1 hl) hg
  have h1 := Ext.fold (J := Mid f k) _ a1 (fun p hp g hg => hg.ext (a1 p hp g hg) (by rintro x d y ⟨p, -, rfl, -⟩; omega)) g hg
  have h1' : Ext g ((f.outgoingLetters q).foldl (approxLetter f (k * f.size) q) g) (fun x c y => ∃ p, x = q + k * f.size ∧ y = p + (k + 1) * f.size ∧ f.Cross q c p) (fun _ => False) := by
    refine h1.congr (fun x c y => ?_) (fun x => by simp)
    constructor
    · rintro ⟨l, hl, p, h1, h2, h3, ⟨h4, h5⟩ | h4⟩
      · exact ⟨p, h1, h2, h3, .inl ⟨⟨l, h4⟩, h5⟩⟩
      · exact ⟨p, h1, h2, h3, .inr ⟨h4, l, (outgoing_iff hf).1 hl⟩⟩
    · rintro ⟨p, h1, h2, h3, ⟨⟨l, h4⟩, h5⟩ | ⟨h4, l, hl⟩⟩
      · obtain ⟨S, hS, -⟩ := mem_dst.1 h4
        exact ⟨l, (outgoing_iff hf).2 (by rw [hS]; rfl), p, h1, h2, h3, .inl ⟨h4, h5⟩⟩
      · exact ⟨l, (outgoing_iff hf).2 hl, p, h1, h2, h3, .inr h4⟩
  rw [e]
  have hsz := h1'.size.trans hg.size
  split
  · rename_i hfin
    have hfin : q ∈ f.finals := by simpa [isFinal] using hfin
    refine (h1'.trans (Ext.setFinal (by omega))).congr (fun x c y => by simp) (fun x => ?_)
    simp [hfin]
  · rename_i hfin
    have hfin : q ∉ f.finals := by simpa [isFinal] using hfin
    exact h1'.congr (fun x c y => Iff.rfl) (fun x => by simp [hfin])

end layer

theorem split_unique {n q i q' i' : Nat} (hq : q < n) (hq' : q' < n) (h : q + i * n = q' + i' * n) : q = q' ∧ i = i' := by
  have h1 := congrArg (· / n) h
  have h2 := congrArg (· % n) h
  simp only [Nat.add_mul_mod_self_right, Nat.mod_eq_of_lt hq, Nat.mod_eq_of_lt hq'] at h2
  simp only [Nat.add_mul_div_right _ _ (show 0 < n by omega), Nat.div_eq_of_lt hq, Nat.div_eq_of_lt hq', Nat.zero_add] at h1
  exact ⟨h2, h1⟩

theorem layer_lt {n q i k : Nat} (hq : q < n) (hi : i ≤ k) : q + i * n < (k + 1) * n := by
  calc q + i * n < n + i * n := by omega
    _ = (i + 1) * n := by rw [Nat.add_mul]; omega
    _ ≤ (k + 1) * n := Nat.mul_le_mul_right n (by omega)

theorem layer_le {n q i k : Nat} (hi : k ≤ i) : k * n ≤ q + i * n := by
  have := Nat.mul_le_mul_right n hi
  omega

theorem WF.leads_lt {f : Fsm} (h : f.WF) {q p : Nat} (hl : f.Leads q p) : q < f.size ∧ p < f.size := by
  obtain ⟨l, hl⟩ := hl
  exact ⟨(h.dst_lt hl).1, (h.dst_lt hl).2.2⟩

theorem WF.busy_lt {f : Fsm} (h : f.WF) {q : Nat} (hl : f.Busy q) : q < f.size := by
  obtain ⟨l, hl⟩ := hl
  obtain ⟨S, hS⟩ := Option.isSome_iff_exists.1 hl
  exact (h.tr_lt _ _ _ hS).1

theorem WF.cross_lt {f : Fsm} (h : f.WF) {q c p : Nat} (hc : f.Cross q c p) : q < f.size ∧ p < f.size := by
  rcases hc.2 with ⟨h1, -⟩ | ⟨rfl, h1⟩
  · exact h.leads_lt h1
  · exact ⟨h.busy_lt h1, h.busy_lt h1⟩

/-- The automaton after `k` rounds of the main loop: `k + 1` copies of the original. -/
structure Layers (f : Fsm) (k : Nat) (g : Fsm) : Prop where
  wf : g.WF
  coh : g.Coh
  raw : 0 < k → g.Raw
  size : g.size = (k + 1) * f.size
  sparsed : g.sparsed = f.sparsed
  determined : g.determined = f.determined
  initial : g.initial = f.initial
  tags : ∀ M, f.TagsIn M → g.TagsIn M
  alt : g.isAlt = true → f.isAlt = true ∧ (0 < k → ∀ q c p, ¬ f.Cross q c p)
  fin : ∀ x, x ∈ g.finals ↔ ∃ i ≤ k, ∃ q ∈ f.finals, x = q + i * f.size
  edge : ∀ x c y, g.Edge x c y ↔ ∃ i q p, x = q + i * f.size ∧
    ((i ≤ k ∧ y = p + i * f.size ∧ f.Edge q c p) ∨ (i < k ∧ y = p + (i + 1) * f.size ∧ f.Cross q c p))

theorem Layers.zero {f : Fsm} (h : f.WF) (hc : f.Coh) (hns : f.Direct) : Layers f 0 f := by
  refine ⟨h, hc, fun h => (by omega), by simp, rfl, rfl, rfl, fun _ h => h, fun h => ⟨h, fun h => (by omega)⟩, fun x => ?_, fun x c y => ?_⟩
  · constructor
    · exact fun hx => ⟨0, le_refl _, x, hx, by simp⟩
    · rintro ⟨i, hi, q, hq, rfl⟩
      obtain rfl : i = 0 := by omega
      simpa using hq
  · constructor
    · exact fun hx => ⟨0, x, y, by simp, .inl ⟨le_refl _, by simp, hx⟩⟩
    · rintro ⟨i, q, p, rfl, ⟨hi, rfl, he⟩ | ⟨hi, -⟩⟩
      · obtain rfl : i = 0 := by omega
        simpa using he
      · omega

theorem Layers.succ {f g : Fsm} {k : Nat} (h : f.WF) (hc : f.Coh) (hns : f.Direct) (hg : Layers f k g) :
    Layers f (k + 1) (approxLayer f g k) := by
  have hsz : g.size = (k + 1) * f.size := hg.size
  have iw : (g.import_ f).WF := hg.wf.import_ hg.coh h hc
  have ie := import_edge hg.wf hg.coh h hc
  have hdst : ∀ x c y, y ∈ (g.import_ f).dst x c ↔ (g.import_ f).Edge x c y := by
    intro x c y
    rw [edge_iff, key_raw (import_raw g f)]
  have hs : (k + 2) * f.size = (k + 1) * f.size + f.size := by rw [Nat.add_mul, Nat.add_mul]; omega
  have mid : Mid f k (g.import_ f) := by
    refine ⟨iw, by rw [import_size, hsz, hs], hg.sparsed, import_raw g f, fun q c p hq hp => ?_⟩
    rw [hdst, ie, hg.edge]
    constructor
    · rintro (⟨i, q', p', e1, ⟨-, e2, e3⟩ | ⟨-, e2, e3⟩⟩ | ⟨h1, -⟩)
      · have hl := h.edge_lt e3
        obtain ⟨rfl, rfl⟩ := split_unique hq hl.1 e1
        obtain ⟨rfl, -⟩ := split_unique hp hl.2.2 e2
        exact e3
      · have hl := h.cross_lt e3
        obtain ⟨rfl, rfl⟩ := split_unique hq hl.1 e1
        have := (split_unique hp hl.2 e2).2
        omega
      · have := layer_lt hq (le_refl k)
        omega
    · exact fun he => .inl ⟨k, q, p, rfl, .inl ⟨le_refl _, rfl, he⟩⟩
  have a1 := fun q (hq : q ∈ List.range f.size) (g' : Fsm) (hg' : Mid f k g') => approxState_ext (k := k) h hns (List.mem_range.1 hq) hg'
  have ext := Ext.fold (J := Mid f k) _ a1 (fun q hq g' hg' => hg'.ext (a1 q hq g' hg') (by rintro x c y ⟨p, -, rfl, -⟩; omega)) _ mid
  have hraw : (approxLayer f g k).Raw := ext.letters.trans (import_raw g f)
  have hsize : (approxLayer f g k).size = (k + 2) * f.size := ext.size.trans mid.size
  refine ⟨ext.wf iw, hraw.coh, fun _ => hraw, hsize, ext.sparsed.trans hg.sparsed, ext.determined.trans hg.determined,
    ext.initial.trans hg.initial, fun M hM => ?_, fun ha => ?_, fun x => ?_, fun x c y => ?_⟩
  · exact ((hg.tags M hM).import_ hM).of_eq ext.tags
  · obtain ⟨h1, h2⟩ := ext.alt ha
    refine ⟨(hg.alt h1).1, fun _ q c p hx => h2 (q + k * f.size) c (p + (k + 1) * f.size) ⟨q, ?_, p, rfl, rfl, hx⟩⟩
    exact List.mem_range.2 (h.cross_lt hx).1
  · change x ∈ (approxLayer f g k).finals ↔ _
    unfold approxLayer
    rw [ext.fin, import_finals, hg.fin]
    constructor
    · rintro (⟨i, hi, q, hq, rfl⟩ | ⟨q, -, hq, rfl⟩)
      · exact ⟨i, by omega, q, hq, rfl⟩
      · exact ⟨k + 1, le_refl _, q, hq, rfl⟩
    · rintro ⟨i, hi, q, hq, rfl⟩
      by_cases hik : i ≤ k
      · exact .inl ⟨i, hik, q, hq, rfl⟩
      · obtain rfl : i = k + 1 := by omega
        exact .inr ⟨q, List.mem_range.2 (h.fin_lt q hq), hq, rfl⟩
  · rw [edge_iff, key_raw hraw]
    unfold approxLayer
    rw [ext.dst, hdst, ie, hg.edge]
    constructor
    · rintro ((⟨i, q, p, rfl, ⟨hi, rfl, he⟩ | ⟨hi, rfl, he⟩⟩ | ⟨h1, h2, he⟩) | ⟨q, hq, p, rfl, rfl, he⟩)
      · exact ⟨i, q, p, rfl, .inl ⟨by omega, rfl, he⟩⟩
      · exact ⟨i, q, p, rfl, .inr ⟨by omega, rfl, he⟩⟩
      · exact ⟨k + 1, x - g.size, y - g.size, by omega, .inl ⟨le_refl _, by omega, he⟩⟩
      · exact ⟨k, q, p, rfl, .inr ⟨by omega, rfl, he⟩⟩
    · rintro ⟨i, q, p, rfl, ⟨hi, rfl, he⟩ | ⟨hi, rfl, he⟩⟩
      · by_cases hik : i ≤ k
        · exact .inl (.inl ⟨i, q, p, rfl, .inl ⟨hik, rfl, he⟩⟩)
        · obtain rfl : i = k + 1 := by omega
          refine .inl (.inr ⟨by omega, by omega, ?_⟩)
          rw [hsz, Nat.add_sub_cancel, Nat.add_sub_cancel]
          exact he
      · by_cases hik : i < k
        · exact .inl (.inl ⟨i, q, p, rfl, .inr ⟨hik, rfl, he⟩⟩)
        · obtain rfl : i = k := by omega
          exact .inr ⟨q, List.mem_range.2 (h.cross_lt he).1, p, rfl, rfl, he⟩

theorem Layers.all {f : Fsm} (h : f.WF) (hc : f.Coh) (hns : f.Direct) (d : Nat) : Layers f d ((List.range d).foldl (approxLayer f) f) := by
  induction d with
  | zero => exact .zero h hc hns
  | succ d ih =>
    rw [List.range_succ, List.foldl_append]
    exact ih.succ h hc hns

/-! ### Exchanged neighbours -/

/-- A pair of edges to be added: from `x` by `second` to a new state and from there by `first` to `y`. -/
structure Swp where
  x : Nat
  second : Nat
  first : Nat
  y : Nat

/-- The pairs of edges that `CreateApproxFsm` adds for a state. -/
def swapsOf (f : Fsm) (state : Nat) : List Swp :=
  (f.outgoingLetters (state % f.size)).flatMap fun l1 => (elems (f.destinations (state % f.size) l1)).flatMap fun p1 =>
    (f.outgoingLetters p1).flatMap fun l2 => ((elems (f.destinations p1 l2)).filter fun p2 => p2 ≠ state % f.size ∨ p1 ≠ state % f.size).map
      fun p2 => ⟨state, l2, l1, p2 + (state / f.size + 1) * f.size⟩

def addSwap (g : Fsm) (t : Swp) : Fsm :=
  ((g.resize (g.size + 1)).connect t.x g.size t.second).connect g.size t.y t.first

theorem approxSwaps_eq (f g : Fsm) (state : Nat) : approxSwaps f g state = (swapsOf f state).foldl addSwap g := by
  unfold approxSwaps swapsOf
  simp only [List.foldl_flatMap, List.foldl_map, List.foldl_filter]
  congr 1
  funext g l1
  congr 1
  funext g p1
  congr 1
  funext g l2
  congr 1
  funext g p2
  unfold approxSwap addSwap
  simp only [decide_eq_true_eq, resize_size, Nat.add_sub_cancel]

theorem allSwaps_eq (f g : Fsm) (m : Nat) : (List.range m).foldl (approxSwaps f) g = ((List.range m).flatMap (swapsOf f)).foldl addSwap g := by
  rw [List.foldl_flatMap]
  congr 1
  funext g x
  exact approxSwaps_eq f g x

structure Swapped (g : Fsm) (ts : List Swp) (h : Fsm) : Prop where
  wf : h.WF
  size : h.size = g.size + ts.length
  initial : h.initial = g.initial
  letters : h.letters = g.letters
  sparsed : h.sparsed = g.sparsed
  determined : h.determined = g.determined
  tags : h.tags = g.tags
  finals : h.finals = g.finals
  alt : h.isAlt = true → g.isAlt = true ∧ ts = []
  dst : ∀ x c y, y ∈ h.dst x c ↔ y ∈ g.dst x c ∨ ∃ j t, ts[j]? = some t ∧
    ((x = t.x ∧ c = t.second ∧ y = g.size + j) ∨ (x = g.size + j ∧ c = t.first ∧ y = t.y))

theorem swapped {g : Fsm} (hg : g.WF) {ts : List Swp} (ht : ∀ t ∈ ts, t.x < g.size ∧ t.y < g.size ∧ t.first < 264 ∧ t.second < 264) :
    Swapped g ts (ts.foldl addSwap g) := by
  induction ts using List.reverseRecOn with
  | nil => exact ⟨hg, rfl, rfl, rfl, rfl, rfl, rfl, rfl, fun h => ⟨h, rfl⟩, fun _ _ _ => by simp⟩
  | append_singleton ts t ih =>
    obtain ⟨h1, h2, h3, h4⟩ := ht t (by simp)
    have ih := ih fun t' ht' => ht t' (by simp [ht'])
    rw [List.foldl_append, List.foldl_cons, List.foldl_nil]
    generalize ts.foldl addSwap g = h at ih ⊢
    have hsz := ih.size
    have w1 := ih.wf.resize (n := h.size + 1) (by omega)
    have w2 := w1.connect (q := t.x) (p := h.size) (c := t.second) (by rw [resize_size]; omega) (by rw [resize_size]; omega) h4
    have w3 := w2.connect (q := h.size) (p := t.y) (c := t.first) (by rw [connect_size, resize_size]; omega) (by rw [connect_size, resize_size]; omega) h3
    refine ⟨w3, by simp [addSwap, hsz, Nat.add_assoc], ih.initial, ih.letters, ih.sparsed, ih.determined, ih.tags, ih.finals, fun h => (by cases h), fun x c y => ?_⟩
    have hd : ∀ x c, (h.resize (h.size + 1)).dst x c = h.dst x c := fun x c => by
      rw [Fsm.dst, Fsm.dst, ih.wf.resize_tr (by omega)]
    have e1 : y ∈ (addSwap h t).dst x c ↔ y ∈ h.dst x c ∨ (x = t.x ∧ c = t.second ∧ y = h.size) ∨ (x = h.size ∧ c = t.first ∧ y = t.y) := by
      unfold addSwap
      rw [connect_eq_connectAll, mem_dst_connectAll, connect_eq_connectAll, mem_dst_connectAll, hd]
      simp only [List.mem_singleton, Prod.mk.injEq]
      tauto
    rw [e1, ih.dst, hsz]
    constructor
    · rintro ((h1 | ⟨j, t', hj, h1⟩) | h1)
      · exact .inl h1
      · exact .inr ⟨j, t', by rw [List.getElem?_append_left (List.getElem?_eq_some_iff.1 hj).1]; exact hj, h1⟩
      · exact .inr ⟨ts.length, t, by simp, h1⟩
    · rintro (h1 | ⟨j, t', hj, h1⟩)
      · exact .inl (.inl h1)
      · by_cases hjl : j < ts.length
        · rw [List.getElem?_append_left hjl] at hj
          exact .inl (.inr ⟨j, t', hj, h1⟩)
        · have hlt := (List.getElem?_eq_some_iff.1 hj).1
          rw [List.length_append, List.length_singleton] at hlt
          obtain rfl : j = ts.length := by omega
          rw [List.getElem?_append_right (le_refl _)] at hj
          simp at hj
          subst hj
          exact .inr h1

/-- A pair of edges of the automaton that may be taken in the other order: `q` by `a` to `r` and on by `b` to `p`. -/
def Pair (f : Fsm) (q a r b p : Nat) : Prop := r ∈ f.dst q a ∧ p ∈ f.dst r b ∧ (p ≠ q ∨ r ≠ q)

theorem mem_swapsOf {f : Fsm} (h : f.WF) (hns : f.Direct) {q i : Nat} (hq : q < f.size) {t : Swp} :
    t ∈ swapsOf f (q + i * f.size) ↔ ∃ r p, f.Pair q t.first r t.second p ∧ t.x = q + i * f.size ∧ t.y = p + (i + 1) * f.size := by
  unfold swapsOf
  rw [Nat.add_mul_mod_self_right, Nat.mod_eq_of_lt hq, Nat.add_mul_div_right _ _ (by omega), Nat.div_eq_of_lt hq, Nat.zero_add]
  simp only [List.mem_flatMap, List.mem_map, List.mem_filter, outgoing_iff h, mem_elems, decide_eq_true_eq]
  constructor
  · rintro ⟨a, ha, r, hr, b, hb, p, ⟨hp, hn⟩, rfl⟩
    rw [hns q a ha] at hr
    rw [hns r b hb] at hp
    exact ⟨r, p, ⟨hr, hp, hn⟩, rfl, rfl⟩
  · rintro ⟨r, p, ⟨hr, hp, hn⟩, h1, h2⟩
    obtain ⟨S, hS, -⟩ := mem_dst.1 hr
    obtain ⟨S', hS', -⟩ := mem_dst.1 hp
    have ha : (f.tr q t.first).isSome = true := by rw [hS]; rfl
    have hb : (f.tr r t.second).isSome = true := by rw [hS']; rfl
    refine ⟨t.first, ha, r, by rw [hns q _ ha]; exact hr, t.second, hb, p, ⟨by rw [hns r _ hb]; exact hp, hn⟩, ?_⟩
    rw [← h1, ← h2]

/-- What `CreateApproxFsm` makes. The states beyond the copies are met between exchanged neighbours; `ts` lists them. -/
structure Approx (f : Fsm) (d : Nat) (g : Fsm) (ts : List Swp) : Prop where
  wf : g.WF
  coh : g.Coh
  raw : 0 < d → g.Raw
  sparsed : g.sparsed = f.sparsed
  determined : g.determined = f.determined
  initial : g.initial = f.initial
  tags : ∀ M, f.TagsIn M → g.TagsIn M
  alt : g.isAlt = true → f.isAlt = true ∧ (0 < d → ∀ q c p, ¬ f.Cross q c p)
  fin : ∀ x, x ∈ g.finals ↔ ∃ i ≤ d, ∃ q ∈ f.finals, x = q + i * f.size
  swp : ∀ t, t ∈ ts ↔ ∃ i < d, ∃ q r p, f.Pair q t.first r t.second p ∧ t.x = q + i * f.size ∧ t.y = p + (i + 1) * f.size
  edge : ∀ x c y, g.Edge x c y ↔
    (∃ i q p, x = q + i * f.size ∧
      ((i ≤ d ∧ y = p + i * f.size ∧ f.Edge q c p) ∨ (i < d ∧ y = p + (i + 1) * f.size ∧ f.Cross q c p))) ∨
    ∃ j t, ts[j]? = some t ∧
      ((x = t.x ∧ c = t.second ∧ y = (d + 1) * f.size + j) ∨ (x = (d + 1) * f.size + j ∧ c = t.first ∧ y = t.y))

theorem createApprox_spec {f : Fsm} (h : f.WF) (hc : f.Coh) (hns : f.Direct) (d : Nat) : ∃ ts, Approx f d (createApprox f d) ts := by
  have hl := Layers.all h hc hns d
  have hn : 0 < f.size := by have := h.init_lt; omega
  unfold createApprox
  dsimp only
  by_cases hd : d = 0
  · subst hd
    refine ⟨[], h, hc, fun h => (by omega), rfl, rfl, rfl, fun _ h => h, hl.alt, hl.fin, fun t => by simp, fun x c y => ?_⟩
    simp only [List.getElem?_nil]
    have := hl.edge x c y
    constructor
    · exact fun h => .inl (this.1 h)
    · rintro (h | ⟨j, t, h, -⟩)
      · exact this.2 h
      · cases h
  · generalize (List.range d).foldl (approxLayer f) f = g at hl
    have hm : (if d > 0 then g.size - f.size else 0) = d * f.size := by
      rw [if_pos (by omega), hl.size, Nat.add_mul]; omega
    rw [hm, allSwaps_eq]
    have hts : ∀ t, t ∈ (List.range (d * f.size)).flatMap (swapsOf f) ↔
        ∃ i < d, ∃ q r p, f.Pair q t.first r t.second p ∧ t.x = q + i * f.size ∧ t.y = p + (i + 1) * f.size := by
      intro t
      rw [List.mem_flatMap]
      constructor
      · rintro ⟨x, hx, ht⟩
        have hx := List.mem_range.1 hx
        have e : x = x % f.size + x / f.size * f.size := by rw [Nat.mul_comm]; exact (Nat.mod_add_div x f.size).symm
        rw [e, mem_swapsOf h hns (Nat.mod_lt _ hn)] at ht
        obtain ⟨r, p, h1⟩ := ht
        exact ⟨x / f.size, (Nat.div_lt_iff_lt_mul hn).2 hx, x % f.size, r, p, h1⟩
      · rintro ⟨i, hi, q, r, p, h1, h2⟩
        have hq := (h.dst_lt h1.1).1
        refine ⟨q + i * f.size, List.mem_range.2 ?_, (mem_swapsOf h hns hq).2 ⟨r, p, h1, h2⟩⟩
        have := layer_lt (k := d - 1) hq (by omega : i ≤ d - 1)
        rwa [Nat.sub_add_cancel (by omega)] at this
    have sw := swapped hl.wf (ts := (List.range (d * f.size)).flatMap (swapsOf f)) (by
      intro t ht
      obtain ⟨i, hi, q, r, p, h1, h2, h3⟩ := (hts t).1 ht
      have e1 := h.dst_lt h1.1
      have e2 := h.dst_lt h1.2.1
      have := layer_lt (k := d) e1.1 (by omega : i ≤ d)
      have := layer_lt (k := d) e2.2.2 (by omega : i + 1 ≤ d)
      rw [hl.size]
      exact ⟨by omega, by omega, e1.2.1, e2.2.1⟩)
    generalize (List.range (d * f.size)).flatMap (swapsOf f) = ts at sw hts
    have hraw : (ts.foldl addSwap g).Raw := sw.letters.trans (hl.raw (by omega))
    refine ⟨ts, sw.wf, hraw.coh, fun _ => hraw, sw.sparsed.trans hl.sparsed, sw.determined.trans hl.determined, sw.initial.trans hl.initial,
      fun M hM => (hl.tags M hM).of_eq sw.tags, fun ha => hl.alt (sw.alt ha).1, fun x => by rw [sw.finals]; exact hl.fin x, hts, fun x c y => ?_⟩
    rw [edge_iff, key_raw hraw, sw.dst, hl.size, ← hl.edge, edge_iff, key_raw (hl.raw (by omega))]

end Fsm
end Pire
