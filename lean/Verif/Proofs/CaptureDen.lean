import Verif.Proofs.CaptureItems

/-!
# What items match is what the pattern means (C60)
-/

namespace Pire
namespace Capture
open Spec Pire.Lex Pire.Enc Pire.Parse

variable {x y : List Item} {ns ms v u : List Nat}

theorem _root_.Pire.Spec.Starts.sum_le : ∀ {x : List Item} {ns v : List Nat}, Starts x ns v → ns.sum ≤ v.length := by
  intro x
  induction x with
  | nil => intro ns v h; cases ns with
    | nil => simp
    | cons => exact h.elim
  | cons it x ih =>
    intro ns v h
    cases ns with
    | nil => exact h.elim
    | cons n ns =>
      obtain ⟨-, h2, -, h4⟩ := h
      have := ih h4
      rw [List.length_drop] at this
      rw [List.sum_cons]; omega

theorem _root_.Pire.Spec.Starts.length : ∀ {x : List Item} {ns v : List Nat}, Starts x ns v → ns.length = x.length := by
  intro x
  induction x with
  | nil => intro ns v h; cases ns with
    | nil => rfl
    | cons => exact h.elim
  | cons it x ih =>
    intro ns v h
    cases ns with
    | nil => exact h.elim
    | cons n ns => rw [List.length_cons, List.length_cons, ih h.2.2.2]

theorem _root_.Pire.Spec.Starts.append (u : List Nat) : ∀ {x : List Item} {ns v : List Nat}, Starts x ns v → Starts x ns (v ++ u) := by
  intro x
  induction x with
  | nil => intro ns v h; cases ns with
    | nil => trivial
    | cons => exact h.elim
  | cons it x ih =>
    intro ns v h
    cases ns with
    | nil => exact h.elim
    | cons n ns =>
      obtain ⟨h1, h2, h3, h4⟩ := h
      refine ⟨h1, by rw [List.length_append]; omega, ?_, ?_⟩
      · rw [List.take_append_of_le_length h2]; exact h3
      · rw [List.drop_append_of_le_length h2]; exact ih h4

theorem _root_.Pire.Spec.Starts.take : ∀ {x : List Item} {ns v : List Nat} {n : Nat}, Starts x ns v → ns.sum ≤ n → Starts x ns (v.take n) := by
  intro x
  induction x with
  | nil => intro ns v n h _; cases ns with
    | nil => trivial
    | cons => exact h.elim
  | cons it x ih =>
    intro ns v n h hn
    cases ns with
    | nil => exact h.elim
    | cons k ns =>
      obtain ⟨h1, h2, h3, h4⟩ := h
      rw [List.sum_cons] at hn
      refine ⟨h1, by rw [List.length_take]; omega, ?_, ?_⟩
      · rw [List.take_take, Nat.min_eq_left (by omega)]; exact h3
      · rw [List.drop_take]; exact ih h4 (by omega)

theorem _root_.Pire.Spec.Starts.join : ∀ {x : List Item} {ns v : List Nat}, Starts x ns v → Starts y ms (v.drop ns.sum) → Starts (x ++ y) (ns ++ ms) v := by
  intro x
  induction x with
  | nil => intro ns v h hy; cases ns with
    | nil => exact hy
    | cons => exact h.elim
  | cons it x ih =>
    intro ns v h hy
    cases ns with
    | nil => exact h.elim
    | cons n ns =>
      obtain ⟨h1, h2, h3, h4⟩ := h
      refine ⟨h1, h2, h3, ih h4 ?_⟩
      rw [List.sum_cons, ← List.drop_drop] at hy
      exact hy

theorem _root_.Pire.Spec.Starts.split : ∀ {x : List Item} {ns v : List Nat}, Starts (x ++ y) ns v → Starts x (ns.take x.length) v ∧ Starts y (ns.drop x.length) (v.drop (ns.take x.length).sum) := by
  intro x
  induction x with
  | nil => intro ns v h; exact ⟨trivial, h⟩
  | cons it x ih =>
    intro ns v h
    cases ns with
    | nil => exact h.elim
    | cons n ns =>
      obtain ⟨h1, h2, h3, h4⟩ := h
      obtain ⟨i1, i2⟩ := ih h4
      refine ⟨⟨h1, h2, h3, i1⟩, ?_⟩
      rw [List.length_cons, List.take_succ_cons, List.drop_succ_cons, List.sum_cons, ← List.drop_drop]
      exact i2

/-- The items match all of the text. -/
def Whole' (x : List Item) (v : List Nat) : Prop := ∃ ns, Starts x ns v ∧ ns.sum = v.length

theorem whole_append : Whole' (x ++ y) v ↔ ∃ a b, a ++ b = v ∧ Whole' x a ∧ Whole' y b := by
  constructor
  · rintro ⟨ns, h, hs⟩
    obtain ⟨h1, h2⟩ := h.split
    have l1 := h1.sum_le
    refine ⟨v.take (ns.take x.length).sum, v.drop (ns.take x.length).sum, List.take_append_drop _ _, ⟨_, h1.take le_rfl, ?_⟩, ⟨_, h2, ?_⟩⟩
    · rw [List.length_take]; omega
    · have := congrArg List.sum (List.take_append_drop x.length ns)
      rw [List.sum_append] at this
      rw [List.length_drop]; omega
  · rintro ⟨a, b, rfl, ⟨ns, h1, s1⟩, ms, h2, s2⟩
    refine ⟨ns ++ ms, (h1.append b).join ?_, ?_⟩
    · rw [s1, List.drop_left]; exact h2
    · rw [List.sum_append, List.length_append, s1, s2]

theorem whole_one {it : Item} : Whole' [it] v ↔ it.allows v.length ∧ ∀ c ∈ v, c ∈ it.bytes := by
  constructor
  · rintro ⟨ns, h, hs⟩
    cases ns with
    | nil => exact h.elim
    | cons n ns =>
      obtain ⟨h1, h2, h3, h4⟩ := h
      cases ns with
      | cons => exact h4.elim
      | nil =>
        obtain rfl : n = v.length := by simpa using hs
        rw [List.take_length] at h3
        exact ⟨h1, h3⟩
  · rintro ⟨h1, h2⟩
    exact ⟨[v.length], ⟨h1, le_rfl, by rw [List.take_length]; exact h2, trivial⟩, by simp⟩

/-- Powers of a set of bytes. -/
theorem byte_pow {L : Language Nat} {bs : Finset Nat} (hL : ∀ w, w ∈ L ↔ ∃ c ∈ bs, w = [c]) : ∀ (n : Nat) (v : List Nat), v ∈ L ^ n ↔ v.length = n ∧ ∀ c ∈ v, c ∈ bs := by
  intro n
  induction n with
  | zero =>
    intro v
    rw [pow_zero, Language.mem_one]
    constructor
    · rintro rfl; exact ⟨rfl, nofun⟩
    · rintro ⟨h, -⟩; exact List.length_eq_zero_iff.1 h
  | succ n ih =>
    intro v
    rw [pow_succ', Language.mem_mul]
    constructor
    · rintro ⟨a, ha, b, hb, rfl⟩
      obtain ⟨c, hc, rfl⟩ := (hL a).1 ha
      obtain ⟨h1, h2⟩ := (ih b).1 hb
      refine ⟨by simp [h1], fun d hd => ?_⟩
      rcases List.mem_cons.1 hd with rfl | hd
      · exact hc
      · exact h2 d hd
    · rintro ⟨h1, h2⟩
      cases v with
      | nil => cases h1
      | cons c v =>
        exact ⟨[c], (hL _).2 ⟨c, h2 c (by simp), rfl⟩, v, (ih v).2 ⟨by simpa using h1, fun d hd => h2 d (by simp [hd])⟩, rfl⟩

theorem term_bytes {t : Term} {bs : Finset Nat} (h : t.bytes = some bs) (w : List Nat) : w ∈ t.den Codec.ascii ↔ ∃ c ∈ bs, w = [c] := by
  cases t with
  | letters cs neg =>
    cases neg with
    | true => cases h
    | false =>
      rw [Spec.Term.bytes] at h
      split at h
      · cases h
        rw [Term.den]
        change (∃ c ∈ cs, w = (if c < 0x80 then [c] else []) ∧ w ≠ []) ↔ _
        constructor
        · rintro ⟨c, hc, h1, h2⟩
          by_cases hlt : c < 128
          · rw [if_pos hlt] at h1
            exact ⟨c, Finset.mem_filter.2 ⟨hc, hlt⟩, h1⟩
          · rw [if_neg hlt] at h1
            exact absurd h1 h2
        · rintro ⟨c, hc, rfl⟩
          obtain ⟨hc, hlt⟩ := Finset.mem_filter.1 hc
          exact ⟨c, hc, (if_pos hlt).symm, nofun⟩
      · cases h
  | dot =>
    cases h
    rw [Term.den]
    change (∃ b, b < 256 ∧ w = [b]) ↔ _
    simp only [Finset.mem_range]
  | bol => cases h
  | eol => cases h
  | group => cases h

theorem whole_single {t : Term} {bs : Finset Nat} (h : t.bytes = some bs) (w : List Nat) : w ∈ t.den Codec.ascii ↔ Whole' [⟨bs, 1, some 1, false⟩] w := by
  rw [term_bytes h, whole_one]
  constructor
  · rintro ⟨c, hc, rfl⟩
    exact ⟨⟨le_rfl, fun h hh => by cases hh; exact le_rfl⟩, fun d hd => by rw [List.mem_singleton] at hd; rw [hd]; exact hc⟩
  · rintro ⟨⟨h1, h2⟩, h3⟩
    have h2 := h2 1 rfl
    dsimp only at h1
    obtain ⟨c, rfl⟩ := List.length_eq_one_iff.1 (show w.length = 1 by omega)
    exact ⟨c, h3 c (by simp), rfl⟩

mutual
theorem Alt.items_den (a : Alt) (l : List Bool) {x : List Item} (h : a.items l = some x) (w : List Nat) : w ∈ a.den Codec.ascii ↔ Whole' x w := by
  match a with
  | .one c => rw [Alt.items] at h; rw [Alt.den]; exact Conj.items_den c l h w
  | .or a c => rw [Alt.items] at h; cases h
theorem Conj.items_den (a : Conj) (l : List Bool) {x : List Item} (h : a.items l = some x) (w : List Nat) : w ∈ a.den Codec.ascii ↔ Whole' x w := by
  match a with
  | .one c => rw [Conj.items] at h; rw [Conj.den]; exact Neg.items_den c l h w
  | .and a c => rw [Conj.items] at h; cases h
theorem Neg.items_den (a : Neg) (l : List Bool) {x : List Item} (h : a.items l = some x) (w : List Nat) : w ∈ a.den Codec.ascii ↔ Whole' x w := by
  match a with
  | .one c => rw [Neg.items] at h; rw [Neg.den]; exact Cat.items_den c l h w
  | .not c => rw [Neg.items] at h; cases h
theorem Cat.items_den (a : Cat) (l : List Bool) {x : List Item} (h : a.items l = some x) (w : List Nat) : w ∈ a.den Codec.ascii ↔ Whole' x w := by
  match a with
  | .nil =>
    rw [Cat.items] at h
    cases h
    rw [Cat.den, Language.mem_one]
    constructor
    · rintro rfl; exact ⟨[], trivial, rfl⟩
    · rintro ⟨ns, h1, h2⟩
      cases ns with
      | nil => exact List.length_eq_zero_iff.1 h2.symm
      | cons => exact h1.elim
  | .snoc a c =>
    rw [Cat.items] at h
    obtain ⟨y, hy, h⟩ := Option.bind_eq_some_iff.1 h
    obtain ⟨z, hz, h⟩ := Option.bind_eq_some_iff.1 h
    cases h
    rw [Cat.den, Language.mem_mul, whole_append]
    constructor
    · rintro ⟨a', h1, b', h2, h3⟩
      exact ⟨a', b', h3, (Cat.items_den a l hy a').1 h1, (Iter.items_den c _ hz b').1 h2⟩
    · rintro ⟨a', b', h3, h1, h2⟩
      exact ⟨a', (Cat.items_den a l hy a').2 h1, b', (Iter.items_den c _ hz b').2 h2, h3⟩
theorem Iter.items_den (a : Iter) (l : List Bool) {x : List Item} (h : a.items l = some x) (w : List Nat) : w ∈ a.den Codec.ascii ↔ Whole' x w := by
  match a with
  | .one t => rw [Iter.items] at h; rw [Iter.den]; exact Term.items_den t l h w
  | .rep t lo hi =>
    rw [Iter.items] at h
    obtain ⟨bs, hb, h⟩ := Option.bind_eq_some_iff.1 h
    split at h
    · have h := (Option.some.inj h).symm
      subst h
      rw [Iter.den, whole_one]
      change (∃ n, lo ≤ n ∧ (∀ h, hi = some h → n ≤ h) ∧ w ∈ (t.den Codec.ascii) ^ n) ↔ _
      constructor
      · rintro ⟨n, h1, h2, h3⟩
        obtain ⟨rfl, h4⟩ := (byte_pow (term_bytes hb) n w).1 h3
        exact ⟨⟨h1, h2⟩, h4⟩
      · rintro ⟨⟨h1, h2⟩, h3⟩
        exact ⟨w.length, h1, h2, (byte_pow (term_bytes hb) _ w).2 ⟨rfl, h3⟩⟩
    · cases h
theorem Term.items_den (a : Term) (l : List Bool) {x : List Item} (h : a.items l = some x) (w : List Nat) : w ∈ a.den Codec.ascii ↔ Whole' x w := by
  match a with
  | .letters cs neg =>
    rw [Term.items] at h
    obtain ⟨bs, hb, h⟩ := Option.map_eq_some_iff.1 h
    rw [← h]; exact whole_single hb w
  | .dot =>
    rw [Term.items] at h
    obtain ⟨bs, hb, h⟩ := Option.map_eq_some_iff.1 h
    rw [← h]; exact whole_single hb w
  | .bol => rw [Term.items] at h; cases h
  | .eol => rw [Term.items] at h; cases h
  | .group a =>
    rw [Term.items] at h
    obtain ⟨y, hy, h⟩ := Option.bind_eq_some_iff.1 h
    split at h
    · cases h
    · cases h; rw [Term.den]; exact Alt.items_den a l hy w
end

/-- Beginnings of a text. -/
theorem items_prefix {a : Alt} {l : List Bool} (h : a.items l = some x) {n : Nat} (hn : n ≤ v.length) : v.take n ∈ a.den Codec.ascii ↔ ∃ ns, Starts x ns v ∧ ns.sum = n := by
  rw [Alt.items_den a l h]
  constructor
  · rintro ⟨ns, h1, h2⟩
    rw [List.length_take, Nat.min_eq_left hn] at h2
    have := h1.append (v.drop n)
    rw [List.take_append_drop] at this
    exact ⟨ns, this, h2⟩
  · rintro ⟨ns, h1, h2⟩
    exact ⟨ns, h1.take (by omega), by rw [List.length_take, h2, Nat.min_eq_left hn]⟩

/-! ### Items are not marks -/

theorem bytes_markless {t : Term} {bs : Finset Nat} (h : t.bytes = some bs) : t.markless = true := by
  cases t <;> first | rfl | cases h

mutual
theorem Alt.items_markless (a : Alt) (l : List Bool) {x : List Item} (h : a.items l = some x) : a.markless = true := by
  match a with
  | .one c => rw [Alt.items] at h; rw [Alt.markless]; exact Conj.items_markless c l h
  | .or a c => rw [Alt.items] at h; cases h
theorem Conj.items_markless (a : Conj) (l : List Bool) {x : List Item} (h : a.items l = some x) : a.markless = true := by
  match a with
  | .one c => rw [Conj.items] at h; rw [Conj.markless]; exact Neg.items_markless c l h
  | .and a c => rw [Conj.items] at h; cases h
theorem Neg.items_markless (a : Neg) (l : List Bool) {x : List Item} (h : a.items l = some x) : a.markless = true := by
  match a with
  | .one c => rw [Neg.items] at h; rw [Neg.markless]; exact Cat.items_markless c l h
  | .not c => rw [Neg.items] at h; cases h
theorem Cat.items_markless (a : Cat) (l : List Bool) {x : List Item} (h : a.items l = some x) : a.markless = true := by
  match a with
  | .nil => rfl
  | .snoc a c =>
    rw [Cat.items] at h
    obtain ⟨y, hy, h⟩ := Option.bind_eq_some_iff.1 h
    obtain ⟨z, hz, h⟩ := Option.bind_eq_some_iff.1 h
    rw [Cat.markless, Cat.items_markless a l hy, Iter.items_markless c _ hz]; rfl
theorem Iter.items_markless (a : Iter) (l : List Bool) {x : List Item} (h : a.items l = some x) : a.markless = true := by
  match a with
  | .one t => rw [Iter.items] at h; rw [Iter.markless]; exact Term.items_markless t l h
  | .rep t lo hi =>
    rw [Iter.items] at h
    obtain ⟨bs, hb, h⟩ := Option.bind_eq_some_iff.1 h
    rw [Iter.markless]; exact bytes_markless hb
theorem Term.items_markless (a : Term) (l : List Bool) {x : List Item} (h : a.items l = some x) : a.markless = true := by
  match a with
  | .letters cs neg => rfl
  | .dot => rfl
  | .bol => rw [Term.items] at h; cases h
  | .eol => rw [Term.items] at h; cases h
  | .group a =>
    rw [Term.items] at h
    obtain ⟨y, hy, h⟩ := Option.bind_eq_some_iff.1 h
    rw [Term.markless]; exact Alt.items_markless a l hy
end

end Capture
end Pire
