import Verif.Proofs.AdvSound

/-! # Groups of states in the determination of an advanced counting scanner -/

namespace Pire
namespace Count
namespace Adv

open Spec

variable {A B f : Fsm}

theorem rep_spec (S : Shape A B f) {c : Nat} (hc : IsLetter c) : ∃ e ∈ f.letters.set, f.letters.representative c = e.rep ∧ c ∈ e.members := by
  obtain ⟨r, hr⟩ := Option.isSome_iff_exists.1 ((S.all c).2 hc)
  obtain ⟨e, he, h1, h2⟩ := (S.wf.let_wf.inv_iff _ _).1 hr
  refine ⟨e, he, ?_, h2⟩
  rw [Partition.representative, hr, h1]; rfl

theorem mem_destinations (S : Shape A B f) {q c p : Nat} (hc : IsLetter c) : p ∈ f.destinations q (f.letters.representative c) ↔ f.Edge q c p := by
  obtain ⟨r, hr⟩ := Option.isSome_iff_exists.1 ((S.all c).2 hc)
  obtain ⟨e, he, h1, h2⟩ := (S.wf.let_wf.inv_iff _ _).1 hr
  have hrr : f.letters.inv r = some r := (S.wf.let_wf.inv_iff _ _).2 ⟨e, he, h1, by rw [← h1]; exact S.wf.let_wf.rep_mem e he⟩
  have h3 : f.letters.representative c = r := by rw [Partition.representative, hr]; rfl
  have hr7 := S.wf.let_lt r r hrr
  have h4 : f.translate r = r := by
    unfold Fsm.translate
    rw [S.sparsed, if_neg (by simpa [Epsilon] using hr7.2), Partition.representative, hrr]; rfl
  rw [h3, Fsm.destinations, h4, Fsm.edge_iff, Fsm.key, if_neg hc.2, Partition.repOr, hr]
  rfl

/-- All the states of the group have the level. -/
def Lv (A B : Fsm) (n : Nat) (t : List Nat) (g : Group) : Prop := ∀ x ∈ g, Lvl A B n t x

/-- A level for each tag. -/
def Two (A B : Fsm) (tag l l' : Nat) (t : List Nat) (g : Group) : Prop := ∀ x ∈ g, (x.2 = tag → Lvl A B l t x) ∧ (x.2 ≠ tag → Lvl A B l' t x)

/-- Separated states: those which match again are one ahead. -/
abbrev SepG (A B : Fsm) (n : Nat) (t : List Nat) (g : Group) : Prop := Two A B 2 (n + 1) n t g

/-- Lagging states. -/
abbrev LagG (A B : Fsm) (t : List Nat) (g : Group) : Prop := Two A B 1 0 1 t g

/-- Matched states. -/
def MatG (A B : Fsm) (n : Nat) (t : List Nat) (g : Group) : Prop := ∀ x ∈ g, x.2 = 2 ∧ Lvl A B (n + 1) t x

theorem Two.sub {tag l l' : Nat} {t : List Nat} {g h : Group} (hg : Two A B tag l l' t g) (hs : h ⊆ g) : Two A B tag l l' t h := fun x hx => hg x (hs hx)
theorem Lv.sub {n : Nat} {t : List Nat} {g h : Group} (hg : Lv A B n t g) (hs : h ⊆ g) : Lv A B n t h := fun x hx => hg x (hs hx)
theorem MatG.sub {n : Nat} {t : List Nat} {g h : Group} (hg : MatG A B n t g) (hs : h ⊆ g) : MatG A B n t h := fun x hx => hg x (hs hx)
theorem Lv.empty {n : Nat} {t : List Nat} : Lv A B n t ∅ := fun x hx => absurd hx (Finset.notMem_empty x)
theorem MatG.empty {n : Nat} {t : List Nat} : MatG A B n t ∅ := fun x hx => absurd hx (Finset.notMem_empty x)
theorem Two.empty {tag l l' : Nat} {t : List Nat} : Two A B tag l l' t ∅ := fun x hx => absurd hx (Finset.notMem_empty x)
theorem Two.union {tag l l' : Nat} {t : List Nat} {g h : Group} (hg : Two A B tag l l' t g) (hh : Two A B tag l l' t h) : Two A B tag l l' t (g ∪ h) :=
  fun x hx => (Finset.mem_union.1 hx).elim (hg x) (hh x)
theorem Lv.union {n : Nat} {t : List Nat} {g h : Group} (hg : Lv A B n t g) (hh : Lv A B n t h) : Lv A B n t (g ∪ h) :=
  fun x hx => (Finset.mem_union.1 hx).elim (hg x) (hh x)
theorem MatG.union {n : Nat} {t : List Nat} {g h : Group} (hg : MatG A B n t g) (hh : MatG A B n t h) : MatG A B n t (g ∪ h) :=
  fun x hx => (Finset.mem_union.1 hx).elim (hg x) (hh x)

theorem SepG.lv {n : Nat} {t : List Nat} {g : Group} (h : SepG A B n t g) : Lv A B n t g := fun x hx => by
  by_cases h2 : x.2 = 2
  · exact ((h x hx).1 h2).mono (by omega)
  · exact (h x hx).2 h2

theorem Lv.lag {n : Nat} {t : List Nat} {g : Group} (h : Lv A B n t g) : LagG A B t g := fun x hx => (h x hx).lag

theorem MatG.sep {n : Nat} {t : List Nat} {g : Group} (h : MatG A B n t g) : SepG A B n t g := fun x hx => ⟨fun _ => (h x hx).2, fun hn => absurd (h x hx).1 hn⟩

theorem Two.tag {tag l l' : Nat} {t : List Nat} {g : Group} (h : Two A B tag l l' t g) {x : Nat × Nat} (hx : x ∈ g) : x.2 = 1 ∨ x.2 = 2 ∨ x.2 = 4 := by
  by_cases h2 : x.2 = tag
  · exact ((h x hx).1 h2).tag
  · exact ((h x hx).2 h2).tag

/-! ### `MakeTaggedStates` and `SplitDestinations` -/

theorem mem_tagged {f : Fsm} {dests : Finset Nat} {src : Nat} {x : Nat × Nat} :
    (x ∈ (tagged f dests src).matched ↔ x.1 ∈ dests ∧ x.1 ∉ f.deadStates ∧ src ≠ 2 ∧ f.tag x.1 = 2 ∧ x.2 = 2) ∧
    (x ∈ (tagged f dests src).separated ↔ x.1 ∈ dests ∧ x.1 ∉ f.deadStates ∧ ¬ (src ≠ 2 ∧ f.tag x.1 = 2) ∧ (src = 4 ∨ f.tag x.1 = 4) ∧ x.2 = 4) ∧
    (x ∈ (tagged f dests src).unmatched ↔ x.1 ∈ dests ∧ x.1 ∉ f.deadStates ∧ ¬ (src ≠ 2 ∧ f.tag x.1 = 2) ∧ ¬ (src = 4 ∨ f.tag x.1 = 4) ∧ x.2 = src) := by
  obtain ⟨q, g⟩ := x
  unfold tagged
  simp only [Finset.mem_image, Finset.mem_filter, Prod.mk.injEq]
  refine ⟨⟨?_, ?_⟩, ⟨?_, ?_⟩, ⟨?_, ?_⟩⟩
  · rintro ⟨d, ⟨⟨h1, h2⟩, h3, h4⟩, rfl, rfl⟩; exact ⟨h1, h2, h3, h4, h4⟩
  · rintro ⟨h1, h2, h3, h4, rfl⟩; exact ⟨q, ⟨⟨h1, h2⟩, h3, h4⟩, rfl, h4⟩
  · rintro ⟨d, ⟨⟨⟨h1, h2⟩, h3⟩, h4⟩, rfl, rfl⟩; exact ⟨h1, h2, h3, h4, rfl⟩
  · rintro ⟨h1, h2, h3, h4, rfl⟩; exact ⟨q, ⟨⟨⟨h1, h2⟩, h3⟩, h4⟩, rfl, rfl⟩
  · rintro ⟨d, ⟨⟨⟨h1, h2⟩, h3⟩, h4⟩, rfl, rfl⟩; exact ⟨h1, h2, h3, h4, rfl⟩
  · rintro ⟨h1, h2, h3, h4, rfl⟩; exact ⟨q, ⟨⟨⟨h1, h2⟩, h3⟩, h4⟩, rfl, rfl⟩

/-- What is true of the destinations of a state of level `k` with tag `g`. -/
structure Dest (A B : Fsm) (k : Nat) (t : List Nat) (g : Nat) (d : St) : Prop where
  matched : MatG A B k t d.matched
  fresh : g = 2 → d.matched = ∅
  unmatched : ∀ x ∈ d.unmatched, x.2 = g ∧ Lvl A B k t x
  separated : SepG A B k t d.separated
  tags : ∀ x ∈ d.separated, x.2 ≠ 1

theorem tagged_spec (S : Shape A B f) {k : Nat} {t : List Nat} {q g c : Nat} (h : Lvl A B k t (q, g)) (hc : IsLetter c) :
    Dest A B k (t ++ [c]) g (tagged f (f.destinations q (f.letters.representative c)) g) := by
  have key : ∀ {p}, p ∈ f.destinations q (f.letters.representative c) → _ := fun {p} hp => Lvl.step S h hc ((mem_destinations S hc).1 hp)
  refine ⟨?_, ?_, ?_, ?_, ?_⟩
  · rintro ⟨p, g'⟩ hx
    obtain ⟨h1, -, h3, h4, h5⟩ := mem_tagged.1.1 hx
    dsimp only at h1 h4 h5
    subst h5
    exact ⟨rfl, (key h1).1 h3 h4⟩
  · rintro rfl
    apply Finset.eq_empty_of_forall_notMem
    intro x hx
    exact (mem_tagged.1.1 hx).2.2.1 rfl
  · rintro ⟨p, g'⟩ hx
    obtain ⟨h1, -, h3, h4, h5⟩ := mem_tagged.2.2.1 hx
    dsimp only at h1 h3 h4 h5
    subst h5
    exact ⟨rfl, (key h1).2.2 h3 h4⟩
  · rintro ⟨p, g'⟩ hx
    obtain ⟨h1, -, h3, h4, h5⟩ := mem_tagged.2.1.1 hx
    dsimp only at h1 h3 h4 h5
    subst h5
    exact ⟨fun h => absurd h (by simp), fun _ => (key h1).2.1 h3 h4⟩
  · intro x hx
    obtain ⟨-, -, -, -, h5⟩ := mem_tagged.2.1.1 hx
    omega

theorem restart_spec (S : Shape A B f) {k : Nat} {t : List Nat} {c : Nat} {x : Nat × Nat} (h : Lvl A B k t x) (hx : x.1 ∈ f.finals) (hc : IsLetter c) :
    SepG A B k (t ++ [c]) (tagged f (f.destinations A.initial (f.letters.representative c)) 4).all ∧
    ∀ y ∈ (tagged f (f.destinations A.initial (f.letters.representative c)) 4).all, y.2 ≠ 1 := by
  have hd := tagged_spec S (Lvl.restart S h hx) hc
  constructor
  · intro y hy
    rcases Finset.mem_union.1 hy with hy | hy
    · rcases Finset.mem_union.1 hy with hy | hy
      · exact hd.matched.sep y hy
      · obtain ⟨h1, h2⟩ := hd.unmatched y hy
        exact ⟨fun h => by omega, fun _ => h2⟩
    · exact hd.separated y hy
  · intro y hy
    rcases Finset.mem_union.1 hy with hy | hy
    · rcases Finset.mem_union.1 hy with hy | hy
      · rw [(hd.matched y hy).1]; decide
      · rw [(hd.unmatched y hy).1]; decide
    · exact hd.tags y hy

theorem splitOne_spec (S : Shape A B f) {k : Nat} {t : List Nat} {c : Nat} {x : Nat × Nat} (h : Lvl A B k t x) (hc : IsLetter c) :
    Dest A B k (t ++ [c]) x.2 (splitOne f A.initial (f.letters.representative c) x) := by
  have hd := tagged_spec S (q := x.1) (g := x.2) h hc
  unfold splitOne
  dsimp only
  split
  · rename_i hf
    obtain ⟨h1, h2⟩ := restart_spec S h (by simpa [Fsm.isFinal] using hf) hc
    refine ⟨hd.matched, hd.fresh, hd.unmatched, hd.separated.union h1, fun y hy => ?_⟩
    rcases Finset.mem_union.1 hy with hy | hy
    · exact hd.tags y hy
    · exact h2 y hy
  · exact hd

/-- `SplitDestinations` on a group of level `n`. -/
theorem split_lv (S : Shape A B f) {n : Nat} {t : List Nat} {c : Nat} {g : Group} (h : Lv A B n t g) (hc : IsLetter c) :
    MatG A B n (t ++ [c]) (split f A.initial (f.letters.representative c) g).matched ∧
    Lv A B n (t ++ [c]) (split f A.initial (f.letters.representative c) g).unmatched ∧
    SepG A B n (t ++ [c]) (split f A.initial (f.letters.representative c) g).separated := by
  refine ⟨?_, ?_, ?_⟩ <;> intro y hy <;> obtain ⟨x, hx, hy⟩ := Finset.mem_biUnion.1 hy <;> have hd := splitOne_spec S (h x hx) hc
  · exact hd.matched y hy
  · exact (hd.unmatched y hy).2
  · exact hd.separated y hy

/-- `SplitDestinations` on separated states. -/
theorem split_sep (S : Shape A B f) {n : Nat} {t : List Nat} {c : Nat} {g : Group} (h : SepG A B n t g) (hc : IsLetter c) :
    MatG A B n (t ++ [c]) (split f A.initial (f.letters.representative c) g).matched ∧
    SepG A B n (t ++ [c]) (split f A.initial (f.letters.representative c) g).unmatched ∧
    SepG A B n (t ++ [c]) (split f A.initial (f.letters.representative c) g).separated := by
  refine ⟨?_, ?_, ?_⟩ <;> intro y hy <;> obtain ⟨x, hx, hy⟩ := Finset.mem_biUnion.1 hy
  · have hd := splitOne_spec S (h.lv x hx) hc
    exact hd.matched y hy
  · by_cases h2 : x.2 = 2
    · have hd := splitOne_spec S ((h x hx).1 h2) hc
      obtain ⟨h3, h4⟩ := hd.unmatched y hy
      exact ⟨fun _ => h4, fun h => absurd (h3.trans h2) h⟩
    · have hd := splitOne_spec S ((h x hx).2 h2) hc
      obtain ⟨h3, h4⟩ := hd.unmatched y hy
      exact ⟨fun h => absurd (h3.symm.trans h) h2, fun _ => h4⟩
  · have hd := splitOne_spec S (h.lv x hx) hc
    exact hd.separated y hy

/-- `SplitDestinations` on lagging states. -/
theorem split_lag (S : Shape A B f) {t : List Nat} {c : Nat} {g : Group} (h : LagG A B t g) (hc : IsLetter c) :
    LagG A B (t ++ [c]) (split f A.initial (f.letters.representative c) g).all := by
  intro y hy
  have : ∃ x ∈ g, y ∈ (splitOne f A.initial (f.letters.representative c) x).all := by
    rcases Finset.mem_union.1 hy with hy | hy
    · rcases Finset.mem_union.1 hy with hy | hy <;> obtain ⟨x, hx, hy⟩ := Finset.mem_biUnion.1 hy
      · exact ⟨x, hx, Finset.mem_union_left _ (Finset.mem_union_left _ hy)⟩
      · exact ⟨x, hx, Finset.mem_union_left _ (Finset.mem_union_right _ hy)⟩
    · obtain ⟨x, hx, hy⟩ := Finset.mem_biUnion.1 hy
      exact ⟨x, hx, Finset.mem_union_right _ hy⟩
  obtain ⟨x, hx, hy⟩ := this
  have hl : Lvl A B 0 t x ∧ (x.2 ≠ 1 → Lvl A B 1 t x) := by
    by_cases h1 : x.2 = 1
    · exact ⟨(h x hx).1 h1, fun h => absurd h1 h⟩
    · exact ⟨((h x hx).2 h1).mono (Nat.zero_le _), fun _ => (h x hx).2 h1⟩
  have hd := splitOne_spec S hl.1 hc
  rcases Finset.mem_union.1 hy with hy | hy
  · rcases Finset.mem_union.1 hy with hy | hy
    · obtain ⟨h1, h2⟩ := hd.matched y hy
      exact ⟨fun h => by omega, fun _ => h2⟩
    · obtain ⟨h1, h2⟩ := hd.unmatched y hy
      exact h2.lag
  · exact (hd.separated.lv y hy).lag

/-! ### The two kinds of states -/

/-- What `PrepareNextState` returns. -/
structure Prep (A B : Fsm) (n : Nat) (t : List Nat) (d : St) : Prop where
  matched : MatG A B n t d.matched
  unmatched : Lv A B n t d.unmatched
  separated : SepG A B n t d.separated
  lagging : LagG A B t d.lagging

/-- A state of the scanner. -/
structure Inv (A B : Fsm) (n : Nat) (t : List Nat) (s : St) : Prop where
  matched : s.matched = ∅
  unmatched : Lv A B n t s.unmatched
  separated : SepG A B n t s.separated
  lagging : LagG A B t s.lagging
  full : n = 0 ∨ s.unmatched ≠ ∅

/-- The counter after an action. -/
def count (n a : Nat) : Nat := (if a.testBit 1 then 0 else n) + if a.testBit 0 then 1 else 0

theorem prepare_full (S : Shape A B f) {n : Nat} {t : List Nat} {s : St} {c : Nat} (h : Inv A B n t s) (hc : IsLetter c) :
    Prep A B n (t ++ [c]) ((full f A.initial).prepare s (f.letters.representative c)) := by
  obtain ⟨h1, h2, h3⟩ := split_lv S h.unmatched hc
  obtain ⟨h4, h5, h6⟩ := split_sep S h.separated hc
  exact ⟨h1, h2, h3.union ((h4.sep.union h5).union h6), split_lag S h.lagging hc⟩

end Adv
end Count
end Pire
