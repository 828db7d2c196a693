import Verif.Spec.Lifetime

/-!
# Scanner variables are values: the invariant
-/

namespace Pire
namespace Life

variable {α V : Type}

/-- What the proof needs to know about a class of scanners. -/
structure Laws (K : Kind α) (built : α → Prop) (means : α → V → Prop) : Prop where
  mem_withMem : ∀ m x, K.mem (K.withMem m x) = m
  withMem_withMem : ∀ m m' x, K.withMem m (K.withMem m' x) = K.withMem m x
  withMem_mem : ∀ x, K.withMem (K.mem x) x = x
  base_withMem : ∀ m x, K.base (K.withMem m x) = K.base x
  size_withMem : ∀ m x, K.size (K.withMem m x) = K.size x
  room_withMem : ∀ m x, K.room (K.withMem m x) = K.room x
  built_withMem : ∀ m x, built x → built (K.withMem m x)
  /-- only the tables matter -/
  congr : ∀ m x val, means x val → (∀ i, K.base x ≤ i → i < K.base x + K.size x → m i = K.mem x i) → means (K.withMem m x) val
  copy_base : ∀ a x, built x → K.base (K.copyTo a x) = a
  copy_size : ∀ a x, built x → K.size (K.copyTo a x) = K.size x
  copy_room : ∀ a x, built x → K.room (K.copyTo a x) = K.room x
  room_size : ∀ x, built x → K.size x ≤ K.room x
  size_pos : ∀ x val, means x val → 0 < K.size x
  /-- a copy means the same -/
  copy_means : ∀ a x val, built x → means x val → a % 8 = 0 → 0 < a → a + K.room x ≤ 2 ^ 64 → built (K.copyTo a x) ∧ means (K.copyTo a x) val

/-- A variable's tables are where they should be. -/
def Held (K : Kind α) (built : α → Prop) (w : World α) (y : Var α) : Prop :=
  match y.buffer with
  | some a => a = K.base y.obj ∧ built y.obj ∧ ∃ n, (a, n) ∈ w.owned ∧ K.size y.obj ≤ n
  | none => ∃ b ∈ w.static :: w.mapped, b.1 ≤ K.base y.obj ∧ K.base y.obj + K.size y.obj ≤ b.1 + b.2

/-- The invariant. -/
structure Inv (K : Kind α) (built : α → Prop) (means : α → V → Prop) (e : V) (w : World α) (σ : Nat → Option V) : Prop where
  dom : ∀ v, w.vars v = none ↔ σ v = none
  sound : ∀ v y val, w.vars v = some y → σ v = some val → means (K.withMem w.mem y.obj) val
  held : ∀ v y, w.vars v = some y → Held K built w y
  single : ∀ v u y z a, w.vars v = some y → w.vars u = some z → y.buffer = some a → z.buffer = some a → v = u
  apart : w.blocks.Pairwise Disjoint
  pos : ∀ b ∈ w.owned, 0 < b.2
  noleak : ∀ b ∈ w.owned, ∃ v y, w.vars v = some y ∧ y.buffer = some b.1
  null : means (K.withMem w.mem K.null) e
  nullAt : w.static.1 ≤ K.base K.null ∧ K.base K.null + K.size K.null ≤ w.static.1 + w.static.2

variable {K : Kind α} {built : α → Prop} {means : α → V → Prop} {e : V} {w : World α} {σ : Nat → Option V}

theorem fill_outside {mem src : Mem} {a n i : Nat} (h : i < a ∨ a + n ≤ i) : fill mem a n src i = mem i := by
  unfold fill; rw [if_neg (by omega)]

theorem fill_inside {mem src : Mem} {a n i : Nat} (h : a ≤ i ∧ i < a + n) : fill mem a n src i = src i := by
  unfold fill; rw [if_pos h]

/-- Tables that do not change mean the same. -/
theorem Laws.keep (L : Laws K built means) {m m' : Mem} {x : α} {val : V} (h : means (K.withMem m x) val)
    (hm : ∀ i, K.base x ≤ i → i < K.base x + K.size x → m' i = m i) : means (K.withMem m' x) val := by
  have := L.congr m' (K.withMem m x) val h (by rw [L.base_withMem, L.size_withMem, L.mem_withMem]; exact hm)
  rwa [L.withMem_withMem] at this

theorem Disjoint.symm {b c : Nat × Nat} (h : Disjoint b c) : Disjoint c b := by
  unfold Disjoint at *; omega

instance : Std.Symm (α := Nat × Nat) Disjoint := ⟨fun _ _ h => h.symm⟩

theorem Disjoint.part {b c : Nat × Nat} (h : Disjoint b c) {a n : Nat} (h1 : b.1 ≤ a) (h2 : a + n ≤ b.1 + b.2) : Disjoint (a, n) c := by
  unfold Disjoint at *; dsimp only; omega

/-- The block in which the tables of a variable are. -/
theorem Held.block {y : Var α} (h : Held K built w y) : ∃ b ∈ w.blocks, b.1 ≤ K.base y.obj ∧ K.base y.obj + K.size y.obj ≤ b.1 + b.2 := by
  unfold Held at h
  unfold World.blocks
  cases hb : y.buffer with
  | some a =>
    rw [hb] at h
    obtain ⟨h1, -, n, h2, h3⟩ := h
    exact ⟨(a, n), List.mem_append_left _ h2, by show a ≤ _; omega, by show _ ≤ a + n; omega⟩
  | none =>
    rw [hb] at h
    obtain ⟨b, h1, h2⟩ := h
    exact ⟨b, List.mem_append_right _ h1, h2⟩

theorem Inv.defined (h : Inv K built means e w σ) {v : Nat} {y : Var α} (hv : w.vars v = some y) : ∃ val, σ v = some val := by
  cases hu : σ v with
  | none => rw [(h.dom v).2 hu] at hv; cases hv
  | some val => exact ⟨val, rfl⟩

theorem Inv.covers (h : Inv K built means e w σ) {v : Nat} {y : Var α} (hv : w.vars v = some y) : w.covers (K.base y.obj) (K.size y.obj) = true := by
  obtain ⟨b, h1, h2, h3⟩ := (h.held v y hv).block
  unfold World.covers
  rw [List.any_eq_true]
  exact ⟨b, h1, by simp [h2, h3]⟩

/-- A new block: what was known stays, whatever is written to the block. -/
theorem fresh_keep (L : Laws K built means) {a n : Nat} (hf : Fresh w a n) (src : Mem) {y : α} {val : V} (hm : means (K.withMem w.mem y) val)
    (hb : ∃ b ∈ w.blocks, b.1 ≤ K.base y ∧ K.base y + K.size y ≤ b.1 + b.2) : means (K.withMem (fill w.mem a n src) y) val := by
  obtain ⟨b, h1, h2, h3⟩ := hb
  have := (hf.apart b h1).part h2 h3
  refine L.keep hm fun i i1 i2 => fill_outside ?_
  unfold Disjoint at this
  dsimp only at this
  omega

theorem null_block (h : Inv K built means e w σ) : ∃ b ∈ w.blocks, b.1 ≤ K.base K.null ∧ K.base K.null + K.size K.null ≤ b.1 + b.2 :=
  ⟨w.static, List.mem_append_right _ (List.mem_cons_self ..), h.nullAt⟩

/-- A constructor without a block of its own. -/
theorem Inv.alias (h : Inv K built means e w σ) {v : Nat} (hv : w.vars v = none) {y : Var α} {val : V} (hb : y.buffer = none)
    (hm : means (K.withMem w.mem y.obj) val) (hh : Held K built w y) :
    Inv K built means e { w with vars := Function.update w.vars v (some y) } (Function.update σ v (some val)) where
  dom u := by
    by_cases hu : u = v
    · subst hu; simp
    · simp only [Function.update_of_ne hu]; exact h.dom u
  sound u z val' h1 h2 := by
    by_cases hu : u = v
    · subst hu
      simp only [Function.update_self, Option.some.injEq] at h1 h2
      subst h1 h2
      exact hm
    · simp only [Function.update_of_ne hu] at h1 h2
      exact h.sound u z val' h1 h2
  held u z h1 := by
    by_cases hu : u = v
    · subst hu
      simp only [Function.update_self, Option.some.injEq] at h1
      subst h1
      exact hh
    · simp only [Function.update_of_ne hu] at h1
      exact h.held u z h1
  single u u' z z' a h1 h2 h3 h4 := by
    have hu : u ≠ v := by
      rintro rfl
      simp only [Function.update_self, Option.some.injEq] at h1
      subst h1
      rw [hb] at h3
      cases h3
    have hu' : u' ≠ v := by
      rintro rfl
      simp only [Function.update_self, Option.some.injEq] at h2
      subst h2
      rw [hb] at h4
      cases h4
    simp only [Function.update_of_ne hu] at h1
    simp only [Function.update_of_ne hu'] at h2
    exact h.single u u' z z' a h1 h2 h3 h4
  apart := h.apart
  pos := h.pos
  noleak b hbm := by
    obtain ⟨u, z, h1, h2⟩ := h.noleak b hbm
    have hu : u ≠ v := by rintro rfl; rw [hv] at h1; cases h1
    exact ⟨u, z, by simp only [Function.update_of_ne hu]; exact h1, h2⟩
  null := h.null
  nullAt := h.nullAt

theorem pairwise_cons_fresh {a n : Nat} (hp : w.blocks.Pairwise Disjoint) (hf : Fresh w a n) : ((a, n) :: w.blocks).Pairwise Disjoint :=
  List.pairwise_cons.2 ⟨fun b hb => (hf.apart b hb).symm, hp⟩

/-- A constructor that gets a block. -/
theorem Inv.make (L : Laws K built means) (h : Inv K built means e w σ) {v : Nat} (hv : w.vars v = none) {x : α} {n : Nat} {val : V}
    (hf : Fresh w (K.base x) n) (hn : K.size x ≤ n) (hb : built x) (hm : means x val) :
    Inv K built means e { w with
      mem := fill w.mem (K.base x) n (K.mem x)
      owned := (K.base x, n) :: w.owned
      vars := Function.update w.vars v (some ⟨x, some (K.base x)⟩) } (Function.update σ v (some val)) where
  dom u := by
    by_cases hu : u = v
    · subst hu; simp
    · simp only [Function.update_of_ne hu]; exact h.dom u
  sound u z val' h1 h2 := by
    by_cases hu : u = v
    · subst hu
      simp only [Function.update_self, Option.some.injEq] at h1 h2
      subst h1 h2
      exact L.congr _ x val hm fun i i1 i2 => fill_inside ⟨i1, by omega⟩
    · simp only [Function.update_of_ne hu] at h1 h2
      exact fresh_keep L hf _ (h.sound u z val' h1 h2) (h.held u z h1).block
  held u z h1 := by
    by_cases hu : u = v
    · subst hu
      simp only [Function.update_self, Option.some.injEq] at h1
      subst h1
      exact ⟨rfl, hb, n, List.mem_cons_self .., hn⟩
    · simp only [Function.update_of_ne hu] at h1
      have := h.held u z h1
      unfold Held at this ⊢
      cases hz : z.buffer with
      | none => rw [hz] at this; exact this
      | some a =>
        rw [hz] at this
        obtain ⟨t1, t2, m, t3, t4⟩ := this
        exact ⟨t1, t2, m, List.mem_cons_of_mem _ t3, t4⟩
  single u u' z z' a h1 h2 h3 h4 := by
    have key : ∀ u z, u ≠ v → w.vars u = some z → z.buffer = some (K.base x) → False := by
      intro u z hu h1 h3
      have := h.held u z h1
      unfold Held at this
      rw [h3] at this
      obtain ⟨-, -, m, t3, -⟩ := this
      have hd := hf.apart (K.base x, m) (List.mem_append_left _ t3)
      have hpos := h.pos _ t3
      have := hf.nonzero
      unfold Disjoint at hd
      dsimp only at hd hpos
      omega
    by_cases hu : u = v <;> by_cases hu' : u' = v
    · rw [hu, hu']
    · subst hu
      simp only [Function.update_self, Option.some.injEq] at h1
      subst h1
      simp only [Function.update_of_ne hu'] at h2
      cases h3
      exact (key u' z' hu' h2 h4).elim
    · subst hu'
      simp only [Function.update_self, Option.some.injEq] at h2
      subst h2
      simp only [Function.update_of_ne hu] at h1
      cases h4
      exact (key u z hu h1 h3).elim
    · simp only [Function.update_of_ne hu] at h1
      simp only [Function.update_of_ne hu'] at h2
      exact h.single u u' z z' a h1 h2 h3 h4
  apart := pairwise_cons_fresh h.apart hf
  pos b hbm := by
    rcases List.mem_cons.1 hbm with rfl | hbm
    · exact hf.nonzero
    · exact h.pos b hbm
  noleak b hbm := by
    rcases List.mem_cons.1 hbm with rfl | hbm
    · exact ⟨v, _, Function.update_self .., rfl⟩
    · obtain ⟨u, z, h1, h2⟩ := h.noleak b hbm
      have hu : u ≠ v := by rintro rfl; rw [hv] at h1; cases h1
      exact ⟨u, z, by simp only [Function.update_of_ne hu]; exact h1, h2⟩
  null := fresh_keep L hf _ h.null (null_block h)
  nullAt := h.nullAt

/-- `Swap`. -/
theorem Inv.swap (h : Inv K built means e w σ) (v u : Nat) :
    Inv K built means e { w with vars := Function.update (Function.update w.vars v (w.vars u)) u (w.vars v) }
      (Function.update (Function.update σ v (σ u)) u (σ v)) := by
  let π : Nat → Nat := fun i => if i = u then v else if i = v then u else i
  have hvars : ∀ i, Function.update (Function.update w.vars v (w.vars u)) u (w.vars v) i = w.vars (π i) := by
    intro i
    by_cases hi : i = u
    · subst hi; simp [π]
    · rw [Function.update_of_ne hi]
      by_cases hj : i = v
      · subst hj; simp [π, hi]
      · rw [Function.update_of_ne hj]; simp [π, hi, hj]
  have hσ : ∀ i, Function.update (Function.update σ v (σ u)) u (σ v) i = σ (π i) := by
    intro i
    by_cases hi : i = u
    · subst hi; simp [π]
    · rw [Function.update_of_ne hi]
      by_cases hj : i = v
      · subst hj; simp [π, hi]
      · rw [Function.update_of_ne hj]; simp [π, hi, hj]
  have hπ : ∀ i, π (π i) = i := by
    intro i
    simp only [π]
    split_ifs <;> omega
  have hvars : ∀ i, ({ w with vars := Function.update (Function.update w.vars v (w.vars u)) u (w.vars v) } : World α).vars i = w.vars (π i) := hvars
  refine ⟨?_, ?_, ?_, ?_, h.apart, h.pos, ?_, h.null, h.nullAt⟩
  · intro i; rw [hσ, hvars]; exact h.dom _
  · intro i y val h1 h2; rw [hσ] at h2; rw [hvars] at h1; exact h.sound _ y val h1 h2
  · intro i y h1; rw [hvars] at h1; exact h.held _ y h1
  · intro i j y z a h1 h2 h3 h4
    rw [hvars] at h1 h2
    have := h.single _ _ y z a h1 h2 h3 h4
    rw [← hπ i, ← hπ j, this]
  · intro b hb
    obtain ⟨i, y, h1, h2⟩ := h.noleak b hb
    exact ⟨π i, y, by rw [hvars, hπ]; exact h1, h2⟩

/-- Removing a variable that owns nothing. -/
theorem Inv.forget (h : Inv K built means e w σ) {v : Nat} {y : Var α} (hv : w.vars v = some y) (hb : y.buffer = none) :
    Inv K built means e { w with vars := Function.update w.vars v none } (Function.update σ v none) where
  dom u := by
    by_cases hu : u = v
    · subst hu; simp
    · simp only [Function.update_of_ne hu]; exact h.dom u
  sound u z val' h1 h2 := by
    by_cases hu : u = v
    · subst hu; simp at h1
    · simp only [Function.update_of_ne hu] at h1 h2
      exact h.sound u z val' h1 h2
  held u z h1 := by
    by_cases hu : u = v
    · subst hu; simp at h1
    · simp only [Function.update_of_ne hu] at h1
      exact h.held u z h1
  single u u' z z' a h1 h2 h3 h4 := by
    have hu : u ≠ v := by rintro rfl; simp at h1
    have hu' : u' ≠ v := by rintro rfl; simp at h2
    simp only [Function.update_of_ne hu] at h1
    simp only [Function.update_of_ne hu'] at h2
    exact h.single u u' z z' a h1 h2 h3 h4
  apart := h.apart
  pos := h.pos
  noleak b hbm := by
    obtain ⟨u, z, h1, h2⟩ := h.noleak b hbm
    have hu : u ≠ v := by
      rintro rfl
      rw [hv] at h1
      cases h1
      rw [hb] at h2
      cases h2
    exact ⟨u, z, by simp only [Function.update_of_ne hu]; exact h1, h2⟩
  null := h.null
  nullAt := h.nullAt

theorem find_owned (h : Inv K built means e w σ) {b : Nat × Nat} (hb : b ∈ w.owned) : w.owned.find? (fun c => c.1 == b.1) = some b := by
  have hp : w.owned.Pairwise Disjoint := (List.pairwise_append.1 h.apart).1
  have hs := h.pos
  clear h
  revert hp hs hb
  generalize w.owned = l
  intro hb hp hs
  induction l with
  | nil => cases hb
  | cons c l ih =>
    rw [List.pairwise_cons] at hp
    rw [List.find?_cons]
    rcases List.mem_cons.1 hb with rfl | hb'
    · simp
    · have hd := hp.1 b hb'
      have h1 := hs b (List.mem_cons_of_mem _ hb')
      have h2 := hs c (List.mem_cons_self ..)
      have : (c.1 == b.1) = false := by
        rw [beq_eq_false_iff_ne]
        unfold Disjoint at hd
        omega
      rw [this]
      exact ih hb' hp.2 fun x hx => hs x (List.mem_cons_of_mem _ hx)

theorem owned_nodup (h : Inv K built means e w σ) : w.blocks.Pairwise Disjoint → w.owned.Nodup := by
  intro hp
  have hp := (List.pairwise_append.1 hp).1
  refine List.Pairwise.imp_of_mem ?_ hp
  intro a b ha _ hd he
  subst he
  have := h.pos a ha
  unfold Disjoint at hd
  omega

theorem mem_erase_ne {l : List (Nat × Nat)} {b c : Nat × Nat} (hc : c ∈ l) (hne : c ≠ b) : c ∈ l.erase b := (List.mem_erase_of_ne hne).2 hc

/-- The destructor of a variable that owns a block. -/
theorem Inv.delete (L : Laws K built means) (h : Inv K built means e w σ) {v : Nat} {y : Var α} {a : Nat} (hv : w.vars v = some y) (hb : y.buffer = some a) (junk : Mem) :
    ∃ b, (w.owned.find? fun c => c.1 == a) = some b ∧
      Inv K built means e { w with mem := fill w.mem a b.2 junk, owned := w.owned.erase b, vars := Function.update w.vars v none } (Function.update σ v none) := by
  have hheld := h.held v y hv
  unfold Held at hheld
  rw [hb] at hheld
  obtain ⟨t1, t2, n, t3, t4⟩ := hheld
  refine ⟨(a, n), find_owned h t3, ?_⟩
  have hnd := owned_nodup h h.apart
  have hapart : ∀ c ∈ w.blocks, c ≠ (a, n) → Disjoint c (a, n) := by
    intro c hc hne
    exact h.apart.forall hc (List.mem_append_left _ t3) hne
  have hother : ∀ u z, u ≠ v → w.vars u = some z → ∃ b ∈ w.blocks, b ≠ (a, n) ∧ b.1 ≤ K.base z.obj ∧ K.base z.obj + K.size z.obj ≤ b.1 + b.2 := by
    intro u z hu hz
    have := h.held u z hz
    unfold Held at this
    cases hzb : z.buffer with
    | some a' =>
      rw [hzb] at this
      obtain ⟨s1, -, m, s3, s4⟩ := this
      refine ⟨(a', m), List.mem_append_left _ s3, fun he => hu (h.single u v z y a hz hv ?_ hb), by show a' ≤ _; omega, by show _ ≤ a' + m; omega⟩
      cases he; exact hzb
    | none =>
      rw [hzb] at this
      obtain ⟨b, s1, s2⟩ := this
      refine ⟨b, List.mem_append_right _ s1, fun he => ?_, s2⟩
      subst he
      have := (List.pairwise_append.1 h.apart).2.2 (a, n) t3 (a, n) s1
      have hp := h.pos _ t3
      unfold Disjoint at this
      dsimp only at this hp
      omega
  have keep : ∀ (x : α) (val : V), means (K.withMem w.mem x) val → (∃ b ∈ w.blocks, b ≠ (a, n) ∧ b.1 ≤ K.base x ∧ K.base x + K.size x ≤ b.1 + b.2) →
      means (K.withMem (fill w.mem a n junk) x) val := by
    rintro x val hm ⟨b, b1, b2, b3, b4⟩
    have hd := (hapart b b1 b2).part b3 b4
    refine L.keep hm fun i i1 i2 => fill_outside ?_
    unfold Disjoint at hd
    dsimp only at hd
    omega
  have hstatic : w.static ≠ (a, n) := by
    intro he
    have := (List.pairwise_append.1 h.apart).2.2 (a, n) t3 w.static (List.mem_cons_self ..)
    have hp := h.pos _ t3
    rw [he] at this
    unfold Disjoint at this
    dsimp only at this hp
    omega
  refine ⟨?_, ?_, ?_, ?_, ?_, ?_, ?_, ?_, h.nullAt⟩
  · intro u
    by_cases hu : u = v
    · subst hu; simp
    · simp only [Function.update_of_ne hu]; exact h.dom u
  · intro u z val h1 h2
    by_cases hu : u = v
    · subst hu; simp at h1
    · simp only [Function.update_of_ne hu] at h1 h2
      exact keep z.obj val (h.sound u z val h1 h2) (hother u z hu h1)
  · intro u z h1
    by_cases hu : u = v
    · subst hu; simp at h1
    · simp only [Function.update_of_ne hu] at h1
      have := h.held u z h1
      unfold Held at this ⊢
      cases hzb : z.buffer with
      | none => rw [hzb] at this; exact this
      | some a' =>
        rw [hzb] at this
        obtain ⟨s1, s2, m, s3, s4⟩ := this
        refine ⟨s1, s2, m, mem_erase_ne s3 fun he => hu (h.single u v z y a h1 hv ?_ hb), s4⟩
        cases he; exact hzb
  · intro u u' z z' c h1 h2 h3 h4
    have hu : u ≠ v := by rintro rfl; simp at h1
    have hu' : u' ≠ v := by rintro rfl; simp at h2
    simp only [Function.update_of_ne hu] at h1
    simp only [Function.update_of_ne hu'] at h2
    exact h.single u u' z z' c h1 h2 h3 h4
  · exact h.apart.sublist (List.Sublist.append_right List.erase_sublist _)
  · exact fun b hb' => h.pos b (List.mem_of_mem_erase hb')
  · intro b hb'
    obtain ⟨u, z, h1, h2⟩ := h.noleak b (List.mem_of_mem_erase hb')
    have hu : u ≠ v := by
      rintro rfl
      rw [hv] at h1
      cases h1
      rw [hb] at h2
      have e1 : a = b.1 := Option.some.inj h2
      have e2 := find_owned h t3
      have e3 := find_owned h (List.mem_of_mem_erase hb')
      rw [show b.1 = ((a, n) : Nat × Nat).1 from e1.symm, e2] at e3
      have e4 : (a, n) = b := Option.some.inj e3
      rw [← e4] at hb'
      exact hnd.not_mem_erase hb'
    exact ⟨u, z, by simp only [Function.update_of_ne hu]; exact h1, h2⟩
  · exact keep K.null e h.null ⟨w.static, List.mem_append_right _ (List.mem_cons_self ..), hstatic, h.nullAt⟩

theorem perm_front {A : List (Nat × Nat)} {x s : Nat × Nat} {M : List (Nat × Nat)} : (A ++ s :: x :: M).Perm (x :: (A ++ s :: M)) := by
  refine (List.perm_middle (l₁ := A ++ [s]) (a := x) (l₂ := M)).symm.symm.trans ?_ |> fun h => by simpa using h
  simp

theorem pairwise_perm {l l' : List (Nat × Nat)} (hp : l.Perm l') (h : l.Pairwise Disjoint) : l'.Pairwise Disjoint :=
  hp.pairwise h fun h => h.symm

/-- Every legal operation is defined and keeps the invariant. -/
theorem Inv.step (L : Laws K built means) (h : Inv K built means e w σ) {op : Op α V} (hl : Legal K built means w op) :
    ∃ w', Life.step K w op = some w' ∧ Inv K built means e w' (valueStep e σ op) := by
  cases op with
  | default v => exact ⟨_, rfl, h.alias hl rfl h.null ⟨w.static, List.mem_cons_self .., h.nullAt⟩⟩
  | make v x n val =>
    obtain ⟨h1, h2, h3, h4, h5⟩ := hl
    exact ⟨_, rfl, h.make L h1 h2 h3 h4 h5⟩
  | attach v x val =>
    obtain ⟨h1, ⟨b, h2, h3⟩, h4⟩ := hl
    exact ⟨_, rfl, h.alias h1 rfl h4 ⟨b, List.mem_cons_of_mem _ h2, h3⟩⟩
  | copy v u a =>
    obtain ⟨h1, y, h2, h3⟩ := hl
    obtain ⟨val, hval⟩ : ∃ val, σ u = some val := by
      cases hu : σ u with
      | none => rw [(h.dom u).2 hu] at h2; cases h2
      | some val => exact ⟨val, rfl⟩
    have hm := h.sound u y val h2 hval
    have hheld := h.held u y h2
    have e1 : valueStep e σ (Op.copy v u a : Op α V) = Function.update σ v (some val) := by
      show Function.update σ v (σ u) = _
      rw [hval]
    rw [e1]
    unfold Life.step
    dsimp only
    rw [h2, Option.bind_some]
    cases hb : y.buffer with
    | none =>
      dsimp only
      exact ⟨_, rfl, h.alias h1 hb hm hheld⟩
    | some c =>
      dsimp only
      rw [if_pos (h.covers h2)]
      unfold Held at hheld
      rw [hb] at hheld
      have h3 := h3 (by rw [hb]; rfl)
      have hbw := L.built_withMem w.mem _ hheld.2.1
      have c1 := L.copy_base a _ hbw
      have c2 := L.copy_size a _ hbw
      have c3 := L.copy_room a _ hbw
      rw [L.size_withMem] at c2
      rw [L.room_withMem] at c3
      obtain ⟨c4, c5⟩ := L.copy_means a _ val hbw hm h3.align h3.pos (by rw [L.room_withMem]; exact h3.space)
      have hr := L.room_size _ hheld.2.1
      refine ⟨_, rfl, ?_⟩
      have := h.make L h1 (x := K.copyTo a (K.withMem w.mem y.obj)) (n := K.room (K.copyTo a (K.withMem w.mem y.obj))) (val := val)
        (by rw [c1, c3]; exact h3) (by rw [c2, c3]; exact hr) c4 c5
      rw [c1] at this
      exact this
  | swap v u => exact ⟨_, rfl, h.swap v u⟩
  | destroy v junk =>
    obtain ⟨y, hy⟩ := Option.isSome_iff_exists.1 hl
    unfold Life.step
    dsimp only
    rw [hy, Option.bind_some]
    cases hb : y.buffer with
    | none => exact ⟨_, rfl, h.forget hy hb⟩
    | some a =>
      obtain ⟨b, h1, h2⟩ := h.delete L hy hb junk
      dsimp only
      rw [h1]
      exact ⟨_, rfl, h2⟩
  | map a n content =>
    have hl : Fresh w a n := hl
    refine ⟨_, rfl, h.dom, fun u z val h1 h2 => fresh_keep L hl _ (h.sound u z val h1 h2) (h.held u z h1).block, fun u z h1 => ?_, h.single, ?_, h.pos, h.noleak,
      fresh_keep L hl _ h.null (null_block h), h.nullAt⟩
    · have := h.held u z h1
      unfold Held at this ⊢
      cases hz : z.buffer with
      | some c => rw [hz] at this; exact this
      | none =>
        rw [hz] at this
        obtain ⟨b, b1, b2⟩ := this
        refine ⟨b, ?_, b2⟩
        rcases List.mem_cons.1 b1 with rfl | b1
        · exact List.mem_cons_self ..
        · exact List.mem_cons_of_mem _ (List.mem_cons_of_mem _ b1)
    · exact pairwise_perm perm_front.symm (pairwise_cons_fresh h.apart hl)
  | unmap a n junk =>
    obtain ⟨h1, h2⟩ := hl
    have hp3 := (List.pairwise_append.1 h.apart).2
    have hsm := (List.pairwise_cons.1 hp3.1).1 _ h1
    have keep : ∀ (x : α) (val : V), means (K.withMem w.mem x) val → Disjoint (K.base x, K.size x) (a, n) → means (K.withMem (fill w.mem a n junk) x) val := by
      intro x val hm hd
      refine L.keep hm fun i i1 i2 => fill_outside ?_
      unfold Disjoint at hd
      dsimp only at hd
      omega
    refine ⟨_, rfl, h.dom, fun u z val g1 g2 => keep z.obj val (h.sound u z val g1 g2) (h2 u z g1), fun u z g1 => ?_, h.single, ?_, h.pos, h.noleak,
      keep _ _ h.null (hsm.part h.nullAt.1 h.nullAt.2), h.nullAt⟩
    · have := h.held u z g1
      unfold Held at this ⊢
      cases hz : z.buffer with
      | some c => rw [hz] at this; exact this
      | none =>
        rw [hz] at this
        obtain ⟨b, b1, b2⟩ := this
        refine ⟨b, ?_, b2⟩
        rcases List.mem_cons.1 b1 with rfl | b1
        · exact List.mem_cons_self ..
        · refine List.mem_cons_of_mem _ (mem_erase_ne b1 ?_)
          rintro rfl
          have h5 := h2 u z g1
          have h6 := L.size_pos _ _ (h.sound u z _ g1 (Classical.choose_spec (h.defined g1)))
          rw [L.size_withMem] at h6
          unfold Disjoint at h5
          dsimp only at h5 b2
          omega
    · refine h.apart.sublist (List.Sublist.append_left (List.Sublist.cons_cons _ List.erase_sublist) _)

/-- The beginning: no variables, no blocks from `new`. -/
theorem Inv.start (L : Laws K built means) (h : Start K w) (hn : means K.null e) : Inv K built means e w fun _ => none where
  dom v := by simp [h.vars v]
  sound v y val h' := by rw [h.vars v] at h'; cases h'
  held v y h' := by rw [h.vars v] at h'; cases h'
  single v u y z a h' := by rw [h.vars v] at h'; cases h'
  apart := by unfold World.blocks; rw [h.owned, h.mapped]; simp
  pos b hb := by rw [h.owned] at hb; cases hb
  noleak b hb := by rw [h.owned] at hb; cases hb
  null := L.congr _ _ _ hn h.content
  nullAt := h.static

/-- Every legal program is defined and keeps the invariant. -/
theorem Inv.run (L : Laws K built means) (h : Inv K built means e w σ) {ops : List (Op α V)} (hl : LegalRun K built means w ops) :
    ∃ w', Life.run K w ops = some w' ∧ Inv K built means e w' (ops.foldl (valueStep e) σ) := by
  induction ops generalizing w σ with
  | nil => exact ⟨w, rfl, h⟩
  | cons op ops ih =>
    obtain ⟨w1, h1, h2⟩ := h.step L hl.1
    obtain ⟨w2, h3, h4⟩ := ih h2 (hl.2 w1 h1)
    refine ⟨w2, ?_, h4⟩
    unfold Life.run at h3 ⊢
    rw [List.foldlM_cons, h1]
    exact h3

theorem Inv.noLeak (h : Inv K built means e w σ) (hv : ∀ v, σ v = none) : w.owned = [] := by
  rw [List.eq_nil_iff_forall_not_mem]
  intro b hb
  obtain ⟨v, y, h1, -⟩ := h.noleak b hb
  rw [(h.dom v).2 (hv v)] at h1
  cases h1

theorem Inv.view (h : Inv K built means e w σ) {v : Nat} : (σ v = none ↔ w.view K v = none) ∧ ∀ val, σ v = some val → ∃ x, w.view K v = some x ∧ means x val := by
  unfold World.view
  refine ⟨?_, fun val hv => ?_⟩
  · rw [Option.map_eq_none_iff]; exact (h.dom v).symm
  · cases hw : w.vars v with
    | none => rw [(h.dom v).1 hw] at hv; cases hv
    | some y => exact ⟨_, rfl, h.sound v y val hw hv⟩

/-! ### Programs after programs -/

theorem run_append (K : Kind α) (w : World α) (ops ops' : List (Op α V)) : Life.run K w (ops ++ ops') = (Life.run K w ops).bind fun w' => Life.run K w' ops' := by
  unfold Life.run
  rw [List.foldlM_append]
  rfl

theorem legalRun_append {ops ops' : List (Op α V)} : LegalRun K built means w (ops ++ ops') ↔
    LegalRun K built means w ops ∧ ∀ w', Life.run K w ops = some w' → LegalRun K built means w' ops' := by
  induction ops generalizing w with
  | nil =>
    refine ⟨fun h => ⟨trivial, fun w' hw => ?_⟩, fun h => h.2 w rfl⟩
    cases hw
    exact h
  | cons op ops ih =>
    have e : ∀ w'', Life.run K w (op :: ops) = some w'' ↔ ∃ w', Life.step K w op = some w' ∧ Life.run K w' ops = some w'' := by
      intro w''
      unfold Life.run
      rw [List.foldlM_cons]
      exact Option.bind_eq_some_iff
    show (_ ∧ ∀ w', _ → LegalRun _ _ _ w' (ops ++ ops')) ↔ (_ ∧ ∀ w', _ → LegalRun _ _ _ w' ops) ∧ _
    constructor
    · rintro ⟨h1, h2⟩
      refine ⟨⟨h1, fun w' hw => (ih.1 (h2 w' hw)).1⟩, fun w'' hw => ?_⟩
      obtain ⟨w', g1, g2⟩ := (e w'').1 hw
      exact (ih.1 (h2 w' g1)).2 w'' g2
    · rintro ⟨⟨h1, h2⟩, h3⟩
      exact ⟨h1, fun w' hw => ih.2 ⟨h2 w' hw, fun w'' hw' => h3 w'' ((e w'').2 ⟨w', hw, hw'⟩)⟩⟩

/-- Everything about a class of scanners. -/
theorem lifetimes (L : Laws K built means) (hn : means K.null e) (hs : Start K w) {ops : List (Op α V)} (hl : LegalRun K built means w ops) :
    ∃ w', Life.run K w ops = some w' ∧ Inv K built means e w' (values e ops) := (Inv.start L hs hn).run L hl

end Life
end Pire
