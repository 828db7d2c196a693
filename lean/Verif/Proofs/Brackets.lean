import Verif.Spec.Brackets
import Verif.Proofs.Features

/-!
# Brackets with classes named by capital letters
-/

namespace Pire.Lex

open Pire.Spec Pire.Unidata

/-- The characters an element of a set built by the lexer mentions. -/
def mention (fl : Flavor) (c : Nat) : Finset Nat := if Reserved c then (classOf c).getD ∅ else fl.fold c

/-- The set the lexer collects, the characters it mentions, and the kinds of classes in it. -/
structure RawMix (fl : Flavor) (raw cs : Finset Nat) (lo up : Bool) : Prop where
  elem : ∀ c ∈ raw, Usable c ∨ ∃ n k, charClass n = some k ∧ (c = 0xF000 + n ∧ lo = true ∨ c = 0xF000 + (n - 32) ∧ up = true)
  eq : raw.biUnion (mention fl) = cs
  low : lo = true → ∃ n k, charClass n = some k ∧ 0xF000 + n ∈ raw
  cap : up = true → ∃ n k, charClass n = some k ∧ 0xF000 + (n - 32) ∈ raw

theorem RawMix.union {fl : Flavor} {r r' c c' : Finset Nat} {l l' u u' : Bool} (h : RawMix fl r c l u) (h' : RawMix fl r' c' l' u') :
    RawMix fl (r ∪ r') (c ∪ c') (l || l') (u || u') := by
  refine ⟨fun x hx => ?_, by rw [Finset.union_biUnion, h.eq, h'.eq], fun hl => ?_, fun hu => ?_⟩
  · rcases Finset.mem_union.1 hx with hx | hx
    · exact (h.elem x hx).imp id fun ⟨n, k, h1, h2⟩ => ⟨n, k, h1, h2.imp (fun h => ⟨h.1, by rw [h.2]; rfl⟩) fun h => ⟨h.1, by rw [h.2]; rfl⟩⟩
    · exact (h'.elem x hx).imp id fun ⟨n, k, h1, h2⟩ => ⟨n, k, h1, h2.imp (fun h => ⟨h.1, by rw [h.2, Bool.or_true]⟩) fun h => ⟨h.1, by rw [h.2, Bool.or_true]⟩⟩
  · rcases Bool.or_eq_true_iff.1 hl with hl | hl
    · obtain ⟨n, k, h1, h2⟩ := h.low hl; exact ⟨n, k, h1, Finset.mem_union_left _ h2⟩
    · obtain ⟨n, k, h1, h2⟩ := h'.low hl; exact ⟨n, k, h1, Finset.mem_union_right _ h2⟩
  · rcases Bool.or_eq_true_iff.1 hu with hl | hl
    · obtain ⟨n, k, h1, h2⟩ := h.cap hl; exact ⟨n, k, h1, Finset.mem_union_left _ h2⟩
    · obtain ⟨n, k, h1, h2⟩ := h'.cap hl; exact ⟨n, k, h1, Finset.mem_union_right _ h2⟩

theorem mention_usable {fl : Flavor} {c : Nat} (h : Usable c) : mention fl c = fl.fold c := by rw [mention, if_neg h.1]

theorem RawMix.usable {fl : Flavor} {c : Nat} (h : Usable c) : RawMix fl {c} (fl.fold c) false false :=
  ⟨fun x hx => by rw [Finset.mem_singleton.1 hx]; exact .inl h, by rw [Finset.singleton_biUnion, mention_usable h], nofun, nofun⟩

theorem RawMix.empty {fl : Flavor} : RawMix fl ∅ ∅ false false := ⟨fun x hx => by simp at hx, by simp, nofun, nofun⟩

theorem RawMix.plain {fl : Flavor} {r r' c c' : Finset Nat} {lo up : Bool} (h : RawMix fl r c false false) (h' : RawMix fl r' c' lo up) :
    RawMix fl (r ∪ r') (c ∪ c') lo up := by
  have := h.union h'
  rwa [Bool.false_or, Bool.false_or] at this

theorem RawMix.cls {fl : Flavor} {n : Nat} {k : Finset Nat} (h : charClass n = some k) {r' c' : Finset Nat} {lo up : Bool} (h' : RawMix fl r' c' lo up) :
    RawMix fl ({0xF000 + n} ∪ r') (k ∪ c') true up := by
  have hc := isUpper_class h
  have := RawMix.union (l := true) (u := false) (r := {0xF000 + n}) (c := k) (fl := fl) ⟨fun x hx => ?_, ?_, fun _ => ⟨n, k, h, by simp⟩, nofun⟩ h'
  · rwa [Bool.true_or, Bool.false_or] at this
  · rw [Finset.mem_singleton.1 hx]; exact .inr ⟨n, k, h, .inl ⟨rfl, rfl⟩⟩
  · rw [Finset.singleton_biUnion, mention, if_pos (by unfold Reserved; omega), hc.2.2.1]; rfl

theorem RawMix.capital {fl : Flavor} {n : Nat} {k : Finset Nat} (h : charClass n = some k) {r' c' : Finset Nat} {lo up : Bool} (h' : RawMix fl r' c' lo up) :
    RawMix fl ({0xF000 + (n - 32)} ∪ r') (k ∪ c') lo true := by
  have hc := isUpper_class h
  have := RawMix.union (l := false) (u := true) (r := {0xF000 + (n - 32)}) (c := k) (fl := fl) ⟨fun x hx => ?_, ?_, nofun, fun _ => ⟨n, k, h, by simp⟩⟩ h'
  · rwa [Bool.true_or, Bool.false_or] at this
  · rw [Finset.mem_singleton.1 hx]; exact .inr ⟨n, k, h, .inr ⟨rfl, rfl⟩⟩
  · rw [Finset.singleton_biUnion, mention, if_pos (by unfold Reserved; omega), hc.2.2.2.1]; rfl

theorem mixed_tame {fl : Flavor} {b : Bool} {t : List Nat} {cs : Finset Nat} {lo up : Bool} (h : Mixed fl b t cs lo up) (r : List Nat) : Tame (t ++ 93 :: r) := by
  cases h with
  | nil => exact .plain (by omega) (by decide)
  | dash _ => exact .plain (by omega) (by decide)
  | single h _ => rw [List.append_assoc]; exact bound_tame h _
  | range h _ _ _ => rw [List.append_assoc]; exact bound_tame h _
  | quoted h _ =>
    simp only [List.mem_cons, List.not_mem_nil, or_false] at h
    exact .quoted (by omega)
  | bare h _ =>
    simp only [List.mem_cons, List.not_mem_nil, or_false] at h
    exact .plain (by omega) (by simp only [End]; omega)
  | cls h _ =>
    have h := charClass_low h
    simp only [List.mem_cons, List.not_mem_nil, or_false] at h
    exact .quoted (by omega)
  | cap h _ =>
    have h := charClass_low h
    simp only [List.mem_cons, List.not_mem_nil, or_false] at h
    exact .quoted (by omega)

theorem mixed_head {fl : Flavor} {t : List Nat} {cs : Finset Nat} {lo up : Bool} (h : Mixed fl false t cs lo up) (r : List Nat) :
    (t ++ 93 :: r).head? ≠ some 45 := by
  cases h with
  | nil => simp
  | single h _ => rw [List.append_assoc]; exact bound_head h _
  | range h _ _ _ => rw [List.append_assoc]; exact bound_head h _
  | quoted h _ => simp
  | bare h _ =>
    simp only [List.mem_cons, List.not_mem_nil, or_false] at h
    rcases h with rfl | rfl <;> simp
  | cls h _ => simp
  | cap h _ => simp

theorem rangeLoop_mixed {fl : Flavor} {b : Bool} {t : List Nat} {cs : Finset Nat} {lo up : Bool} (h : Mixed fl b t cs lo up) :
    ∀ (fuel : Nat) (acc : Finset Nat) (rest : List Nat), t.length < fuel → ∃ ch s1 raw, getChar (t ++ 93 :: rest) = .ok (ch, s1) ∧
      rangeLoop fuel (correctChar ch rangeControls) s1 acc = .ok (acc ∪ raw, rest) ∧ RawMix fl raw cs lo up := by
  induction h with
  | nil =>
    intro fuel acc rest hf
    obtain ⟨fuel, rfl⟩ := Nat.exists_eq_succ_of_ne_zero (show fuel ≠ 0 by omega)
    refine ⟨93, rest, ∅, getChar_plain (by omega), ?_, .empty⟩
    rw [correctChar_bare (by decide), Finset.union_empty, Nat.succ_eq_add_one, rangeLoop, control_or (by omega), if_neg (by decide), if_pos rfl]
  | @dash t cs lo up h ih =>
    intro fuel acc rest hf
    obtain ⟨fuel, rfl⟩ := Nat.exists_eq_succ_of_ne_zero (show fuel ≠ 0 by omega)
    obtain ⟨ch, s1, raw, e1, e2, e3⟩ := ih fuel (acc ∪ {45}) rest (by simp at hf; omega)
    refine ⟨45, t ++ 93 :: rest, {45} ∪ raw, getChar_plain (by omega), ?_, .plain (RawMix.usable (usable_low (by omega))) e3⟩
    rw [correctChar_bare (by decide), rangeLoop_step (by decide) (by decide) (rangeItem_dash _) (.refl _) e1, e2, Finset.union_assoc]
  | @single b s c t cs lo up hb h ih =>
    intro fuel acc rest hf
    obtain ⟨fuel, rfl⟩ := Nat.exists_eq_succ_of_ne_zero (show fuel ≠ 0 by omega)
    have hl : s.length ≠ 0 := by cases hb with
      | plain _ _ _ => simp
      | quoted _ => simp
      | code h _ => cases h <;> simp
    obtain ⟨ch, s1, raw, e1, e2, e3⟩ := ih fuel (acc ∪ {c}) rest (by simp at hf; omega)
    obtain ⟨ch', s1', r', b1, b2, b3, -, b4, b5⟩ := bound_start hb (mixed_tame h rest)
    rw [if_neg (not_dash b4 (mixed_head h rest))] at b5
    refine ⟨ch', s1', {c} ∪ raw, by rw [List.append_assoc]; exact b1, ?_, .plain (RawMix.usable (bound_usable hb)) e3⟩
    rw [rangeLoop_step b2 b3 b5 b4 e1, e2, Finset.union_assoc]
  | @range b s x s' y t cs lo up hx hy hu h ih =>
    intro fuel acc rest hf
    obtain ⟨fuel, rfl⟩ := Nat.exists_eq_succ_of_ne_zero (show fuel ≠ 0 by omega)
    obtain ⟨ch, s1, raw, e1, e2, e3⟩ := ih fuel (acc ∪ Finset.Icc x y) rest (by simp at hf; omega)
    obtain ⟨ch', s1', r', b1, b2, b3, -, b4, b5⟩ := bound_start hx (r := 45 :: (s' ++ (t ++ 93 :: rest))) (.plain (by omega) (by decide))
    obtain ⟨r2, c1, c2⟩ := bound_end hy (x := x) (mixed_tame h rest)
    have hr' : r' = 45 :: (s' ++ (t ++ 93 :: rest)) := by
      rcases b4 with h | ⟨_, _, _, h, _⟩
      · exact h
      · cases h
    subst hr'
    rw [if_pos (show correctChar (peekChar (45 :: (s' ++ (t ++ 93 :: rest)))) rangeControls = 0xF02D from (by decide : correctChar 45 rangeControls = 0xF02D)), c2] at b5
    refine ⟨ch', s1', Finset.Icc x y ∪ raw, by simpa using b1, ?_, .plain ⟨?_, ?_, nofun, nofun⟩ e3⟩
    · rw [rangeLoop_step b2 b3 b5 c1 e1, e2, Finset.union_assoc]
    · intro c hc
      rw [Finset.mem_Icc] at hc
      exact .inl (hu c hc.1 hc.2)
    · exact Finset.biUnion_congr rfl fun c hc => by rw [Finset.mem_Icc] at hc; exact mention_usable (hu c hc.1 hc.2)
  | @quoted b c t cs lo up hc h ih =>
    intro fuel acc rest hf
    obtain ⟨fuel, rfl⟩ := Nat.exists_eq_succ_of_ne_zero (show fuel ≠ 0 by omega)
    obtain ⟨ch, s1, raw, e1, e2, e3⟩ := ih fuel (acc ∪ {c}) rest (by simp at hf; omega)
    have hs : inStr rangeControls2 c = true ∧ c < 256 ∧ c ≠ 45 ∧ c ≠ 120 ∧ c ∉ [94, 91, 93, 45, 92] ∧ c ≠ 0 ∧ c ≠ 255 ∧ c ≠ 93 := by
      simp only [List.mem_cons, List.not_mem_nil, or_false] at hc
      rcases hc with rfl | rfl | rfl | rfl | rfl | rfl | rfl | rfl | rfl | rfl | rfl <;> decide
    obtain ⟨h1, h2, h3, h4, h5, h6, h7, h8⟩ := hs
    have hi := rangeItem_ctl h2 h3 h4 (t ++ 93 :: rest)
    rw [h1, Bool.true_or, if_pos rfl] at hi
    refine ⟨0xF000 + c, t ++ 93 :: rest, {c} ∪ raw, getChar_quoted h2, ?_, .plain (RawMix.usable (usable_low h2)) e3⟩
    rw [correctChar_ctl h2 h5 h6, rangeLoop_step (by omega) (by omega) hi (.refl _) e1, e2, Finset.union_assoc]
  | @bare b c t cs lo up hc h ih =>
    intro fuel acc rest hf
    obtain ⟨fuel, rfl⟩ := Nat.exists_eq_succ_of_ne_zero (show fuel ≠ 0 by omega)
    obtain ⟨ch, s1, raw, e1, e2, e3⟩ := ih fuel (acc ∪ {c}) rest (by simp at hf; omega)
    have hs : inStr rangeControls c = true ∧ c < 256 ∧ c ≠ 45 ∧ c ≠ 120 ∧ c ∈ [94, 91, 93, 45, 92] ∧ c ≠ 92 ∧ c ≠ 255 ∧ c ≠ 93 := by
      simp only [List.mem_cons, List.not_mem_nil, or_false] at hc
      rcases hc with rfl | rfl <;> decide
    obtain ⟨h1, h2, h3, h4, h5, h6, h7, h8⟩ := hs
    have hi := rangeItem_ctl h2 h3 h4 (t ++ 93 :: rest)
    rw [h1, Bool.or_true, if_pos rfl] at hi
    refine ⟨c, t ++ 93 :: rest, {c} ∪ raw, getChar_plain h6, ?_, .plain (RawMix.usable (usable_low h2)) e3⟩
    rw [correctChar_bare h5, rangeLoop_step (by omega) (by omega) hi (.refl _) e1, e2, Finset.union_assoc]
  | @cls b n k t cs lo up hn h ih =>
    intro fuel acc rest hf
    obtain ⟨fuel, rfl⟩ := Nat.exists_eq_succ_of_ne_zero (show fuel ≠ 0 by omega)
    obtain ⟨ch, s1, raw, e1, e2, e3⟩ := ih fuel (acc ∪ {0xF000 + n}) rest (by simp at hf; omega)
    have hs : (inStr rangeControls2 n || inStr rangeControls n) = false ∧ n < 256 ∧ n ≠ 45 ∧ n ≠ 120 ∧ n ∉ [94, 91, 93, 45, 92] ∧ n ≠ 0 ∧
        n ≠ 255 ∧ n ≠ 93 := by
      have hc := charClass_low hn
      simp only [List.mem_cons, List.not_mem_nil, or_false] at hc
      rcases hc with rfl | rfl | rfl | rfl | rfl | rfl | rfl | rfl <;> decide
    obtain ⟨h1, h2, h3, h4, h5, h6, h7, h8⟩ := hs
    have hi := rangeItem_ctl h2 h3 h4 (t ++ 93 :: rest)
    rw [h1, if_neg (by decide)] at hi
    refine ⟨0xF000 + n, t ++ 93 :: rest, {0xF000 + n} ∪ raw, getChar_quoted h2, ?_, .cls hn e3⟩
    rw [correctChar_ctl h2 h5 h6, rangeLoop_step (by omega) (by omega) hi (.refl _) e1, e2, Finset.union_assoc]
  | @cap b n k t cs lo up hn h ih =>
    intro fuel acc rest hf
    obtain ⟨fuel, rfl⟩ := Nat.exists_eq_succ_of_ne_zero (show fuel ≠ 0 by omega)
    obtain ⟨ch, s1, raw, e1, e2, e3⟩ := ih fuel (acc ∪ {0xF000 + (n - 32)}) rest (by simp at hf; omega)
    have hs : (inStr rangeControls2 (n - 32) || inStr rangeControls (n - 32)) = false ∧ n - 32 < 256 ∧ n - 32 ≠ 45 ∧ n - 32 ≠ 120 ∧ n - 32 ∉ [94, 91, 93, 45, 92] ∧ n - 32 ≠ 0 ∧
        n - 32 ≠ 255 ∧ n - 32 ≠ 93 := by
      have hc := charClass_low hn
      simp only [List.mem_cons, List.not_mem_nil, or_false] at hc
      rcases hc with rfl | rfl | rfl | rfl | rfl | rfl | rfl | rfl <;> decide
    obtain ⟨h1, h2, h3, h4, h5, h6, h7, h8⟩ := hs
    have hi := rangeItem_ctl h2 h3 h4 (t ++ 93 :: rest)
    rw [h1, if_neg (by decide)] at hi
    refine ⟨0xF000 + (n - 32), t ++ 93 :: rest, {0xF000 + (n - 32)} ∪ raw, getChar_quoted h2, ?_, .capital hn e3⟩
    rw [correctChar_ctl h2 h5 h6, rangeLoop_step (by omega) (by omega) hi (.refl _) e1, e2, Finset.union_assoc]

theorem lexRange_mixed {fl : Flavor} {t : List Nat} {cs : Finset Nat} {lo up : Bool} (h : Mixed fl true t cs lo up) (hh : t.head? ≠ some 94) (r : List Nat) :
    ∃ raw, lexRange (91 :: (t ++ 93 :: r)) = .ok (.letters raw false, r) ∧ RawMix fl raw cs lo up := by
  have hlen := fun {c s1} (h : getChar (t ++ 93 :: r) = .ok (c, s1)) => getChar_length h
  obtain ⟨ch, s1, raw, e1, -, -⟩ := rangeLoop_mixed h (t.length + 1) ∅ r (by omega)
  have hl := getChar_length e1
  simp only [List.length_append, List.length_cons] at hl
  obtain ⟨ch', s1', raw, e1', e2, e3⟩ := rangeLoop_mixed h (s1.length + 2) ∅ r (by omega)
  rw [e1] at e1'
  cases e1'
  refine ⟨raw, ?_, e3⟩
  have hhat : correctChar ch rangeControls ≠ 0xF05E := by
    intro hc
    have := correctChar_hat hc
    subst this
    have := getChar_hat e1
    cases t with
    | nil => simp at this
    | cons c t => exact hh (by simpa using this)
  unfold lexRange
  rw [getChar_plain (by omega), ok_bind]
  dsimp only
  rw [correctChar_bare (by decide), if_neg (by omega), e1, ok_bind]
  dsimp only
  rw [control_or (by omega), if_neg hhat, e2, ok_bind, Finset.empty_union]

theorem lexRange_not_mixed {fl : Flavor} {t : List Nat} {cs : Finset Nat} {lo up : Bool} (h : Mixed fl true t cs lo up) (r : List Nat) :
    ∃ raw, lexRange (91 :: 94 :: (t ++ 93 :: r)) = .ok (.letters raw true, r) ∧ RawMix fl raw cs lo up := by
  obtain ⟨ch, s1, raw, e1, -, -⟩ := rangeLoop_mixed h (t.length + 1) ∅ r (by omega)
  have hl := getChar_length e1
  simp only [List.length_append, List.length_cons] at hl
  obtain ⟨ch', s1', raw, e1', e2, e3⟩ := rangeLoop_mixed h (s1.length + 2) ∅ r (by omega)
  rw [e1] at e1'
  cases e1'
  refine ⟨raw, ?_, e3⟩
  unfold lexRange
  rw [getChar_plain (by omega), ok_bind]
  dsimp only
  rw [correctChar_bare (by decide), if_neg (by omega), getChar_plain (by omega), ok_bind]
  dsimp only
  rw [control_or (by omega), if_pos (by decide), e1, ok_bind]
  dsimp only
  rw [e2, ok_bind, Finset.empty_union]

/-! ### What the features make of it -/

theorem alterClasses_mixed {fl : Flavor} (hf : ∀ c, Usable c → ∀ x ∈ fl.fold c, ¬ Reserved x) {raw cs : Finset Nat} {lo up : Bool} (h : RawMix fl raw cs lo up)
    (neg : Bool) : alterClasses (raw.biUnion fun c => if Reserved c then {c} else fl.fold c) neg =
      if up = true ∧ (lo = true ∨ neg = true) then .throws else .ok (cs, up || neg) := by
  generalize hraw : (raw.biUnion fun c => if Reserved c then {c} else fl.fold c) = raw'
  have key : ∀ i ∈ raw', ¬ Reserved i ∨ ∃ n k, charClass n = some k ∧ (i = 0xF000 + n ∧ lo = true ∨ i = 0xF000 + (n - 32) ∧ up = true) := by
    intro i hi
    rw [← hraw] at hi
    obtain ⟨c, hc, hi⟩ := Finset.mem_biUnion.1 hi
    rcases h.elem c hc with hu | ⟨n, k, hk, hn⟩
    · rw [if_neg hu.1] at hi
      exact .inl (hf c hu i hi)
    · have := (isUpper_class hk).2.2.2.2
      rw [if_pos (by unfold Reserved; omega), Finset.mem_singleton] at hi
      exact .inr ⟨n, k, hk, hi ▸ hn⟩
  have mem : ∀ c ∈ raw, Reserved c → c ∈ raw' := by
    intro c hc hr
    rw [← hraw]
    exact Finset.mem_biUnion.2 ⟨c, hc, by rw [if_pos hr]; simp⟩
  have hneg : (raw'.filter fun i => (isControl i && (classOf i).isSome) && isUpper (plain i)).Nonempty ↔ up = true := by
    constructor
    · rintro ⟨i, hi⟩
      obtain ⟨hi, hp⟩ := Finset.mem_filter.1 hi
      rcases key i hi with hr | ⟨n, k, hk, ⟨rfl, -⟩ | ⟨-, h⟩⟩
      · rw [(isControl_false i).2 hr] at hp; simp at hp
      · have := isUpper_class hk
        rw [plain_ctl (by omega), this.1] at hp; simp at hp
      · exact h
    · intro hu
      obtain ⟨n, k, hk, hm⟩ := h.cap hu
      have hc := isUpper_class hk
      refine ⟨_, Finset.mem_filter.2 ⟨mem _ hm (by unfold Reserved; omega), ?_⟩⟩
      rw [isControl_ctl (by omega), hc.2.2.2.1, plain_ctl (by omega), hc.2.1]; rfl
  have hpos : (raw'.filter fun i => (isControl i && (classOf i).isSome) && !isUpper (plain i)).Nonempty ↔ lo = true := by
    constructor
    · rintro ⟨i, hi⟩
      obtain ⟨hi, hp⟩ := Finset.mem_filter.1 hi
      rcases key i hi with hr | ⟨n, k, hk, ⟨-, h⟩ | ⟨rfl, -⟩⟩
      · rw [(isControl_false i).2 hr] at hp; simp at hp
      · exact h
      · have := isUpper_class hk
        rw [plain_ctl (by omega), this.2.1] at hp; simp at hp
    · intro hu
      obtain ⟨n, k, hk, hm⟩ := h.low hu
      have hc := isUpper_class hk
      refine ⟨_, Finset.mem_filter.2 ⟨mem _ hm (by unfold Reserved; omega), ?_⟩⟩
      rw [isControl_ctl (by omega), hc.2.2.1, plain_ctl (by omega), hc.1]; rfl
  unfold alterClasses
  dsimp only
  have e : (raw'.biUnion fun i => if (isControl i && (classOf i).isSome) = true then (classOf i).getD ∅ else {i}) = cs := by
    rw [← h.eq, ← hraw, Finset.biUnion_biUnion]
    refine Finset.biUnion_congr rfl fun c hc => ?_
    unfold mention
    rcases h.elem c hc with hu | ⟨n, k, hk, hn⟩
    · rw [if_neg hu.1, if_neg hu.1]
      ext x
      rw [Finset.mem_biUnion]
      constructor
      · rintro ⟨y, hy, hx⟩
        rw [(isControl_false y).2 (hf c hu y hy)] at hx
        simp at hx
        rw [hx]; exact hy
      · intro hx
        refine ⟨x, hx, ?_⟩
        rw [(isControl_false x).2 (hf c hu x hx)]
        simp
    · have hcl := isUpper_class hk
      have hr : Reserved c := by unfold Reserved; omega
      have hs : (classOf c).isSome = true := by
        rcases hn with ⟨rfl, -⟩ | ⟨rfl, -⟩
        · rw [hcl.2.2.1]; rfl
        · rw [hcl.2.2.2.1]; rfl
      rw [if_pos hr, if_pos hr, Finset.singleton_biUnion, (isControl_iff c).2 hr, hs, if_pos (by rfl)]
  rw [e]
  simp only [hneg, hpos]
  by_cases hu : up = true
  · simp [hu]
  · simp [hu]

theorem alterAll_split {opts : List Feature} (hn : opts.Nodup) (ho : ∀ f ∈ opts, f ∈ Lex.optional) (cs : Finset Nat) (neg : Bool) :
    alterAll (install opts) cs neg =
      (alterAll (if .caseInsensitive ∈ opts then [.caseInsensitive] else []) cs neg >>= fun x => alterClasses x.1 x.2 >>= fun y =>
        .ok ((Flavor.of toUpper toLower (decide (.andNot ∈ opts)) (decide (.caseInsensitive ∈ opts)) (decide (.glyphs ∈ opts))).widen y.1, y.2)) := by
  obtain ⟨hf, -⟩ := install_cases hn ho
  have hg : ∀ cs neg, alterAll ((if .glyphs ∈ opts then [.glyphs] else []) ++ []) cs neg =
      .ok ((Flavor.of toUpper toLower (decide (.andNot ∈ opts)) (decide (.caseInsensitive ∈ opts)) (decide (.glyphs ∈ opts))).widen cs, neg) := by
    intro cs neg
    by_cases h : Feature.glyphs ∈ opts
    · rw [if_pos h, decide_eq_true h, ← alterGlyphs_spec]; rfl
    · rw [if_neg h, decide_eq_false h, widen_id]; rfl
  have app : ∀ A B cs neg, alterAll (A ++ B) cs neg = (alterAll B cs neg >>= fun x => alterAll A x.1 x.2) := by
    intro A B cs neg
    induction A with
    | nil => change alterAll B cs neg = (alterAll B cs neg >>= fun x => .ok (x.1, x.2)); cases alterAll B cs neg <;> rfl
    | cons f A ih =>
      change (do let (cs, neg) ← alterAll (A ++ B) cs neg; f.alter cs neg) = _
      rw [ih]
      cases alterAll B cs neg <;> rfl
  rw [alterAll_filter, hf, List.append_assoc, app, app]
  cases alterAll (if .caseInsensitive ∈ opts then [.caseInsensitive] else []) cs neg with
  | throws => rfl
  | bad => rfl
  | ok x =>
    change (alterClasses x.1 x.2 >>= fun x => alterAll _ x.1 x.2) = (alterClasses x.1 x.2 >>= fun y => .ok (_, y.2))
    congr 1
    funext y
    rw [← hg, List.append_nil]

theorem alterCase_mixed (a l : Bool) {raw cs : Finset Nat} {lo up : Bool} (h : RawMix (Flavor.of toUpper toLower a true l) raw cs lo up) :
    alterCase raw = raw.biUnion fun c => if Reserved c then {c} else (Flavor.of toUpper toLower a true l).fold c := by
  unfold alterCase
  ext x
  simp only [Finset.mem_union, Finset.mem_image, Finset.mem_biUnion]
  have key : ∀ c ∈ raw, (x ∈ (if Reserved c then {c} else (Flavor.of toUpper toLower a true l).fold c) ↔ toUpper c = x ∨ toLower c = x) := by
    intro c hc
    rcases h.elem c hc with hu | ⟨n, k, hk, hn⟩
    · rw [if_neg hu.1]
      simp only [Flavor.of, if_true, Finset.mem_insert, Finset.mem_singleton]
      exact ⟨fun h => h.imp Eq.symm Eq.symm, fun h => h.imp Eq.symm Eq.symm⟩
    · have hk := (isUpper_class hk).2.2.2.2
      have hcc := control_case (c := c) (by omega) (by omega)
      rw [if_pos (by unfold Reserved; omega), hcc.1, hcc.2.1, Finset.mem_singleton]
      exact ⟨fun h => .inl h.symm, fun h => h.elim Eq.symm Eq.symm⟩
  constructor
  · rintro (⟨c, hc, h⟩ | ⟨c, hc, h⟩)
    · exact ⟨c, hc, (key c hc).2 (.inl h)⟩
    · exact ⟨c, hc, (key c hc).2 (.inr h)⟩
  · rintro ⟨c, hc, h⟩
    rcases (key c hc).1 h with h | h
    · exact .inl ⟨c, hc, h⟩
    · exact .inr ⟨c, hc, h⟩

theorem raw_mixed (a l : Bool) (raw : Finset Nat) :
    raw = raw.biUnion fun c => if Reserved c then {c} else (Flavor.of toUpper toLower a false l).fold c := by
  ext x
  simp only [Finset.mem_biUnion, Flavor.of]
  constructor
  · intro hx; exact ⟨x, hx, by simp⟩
  · rintro ⟨c, hc, hx⟩
    have : x = c := by simpa using hx
    rw [this]; exact hc

/-- All features together. -/
theorem alterAll_mixed {opts : List Feature} (hn : opts.Nodup) (ho : ∀ f ∈ opts, f ∈ Lex.optional) {raw cs : Finset Nat} {lo up : Bool}
    (h : RawMix (Flavor.of toUpper toLower (decide (.andNot ∈ opts)) (decide (.caseInsensitive ∈ opts)) (decide (.glyphs ∈ opts))) raw cs lo up) (neg : Bool) :
    alterAll (install opts) raw neg = if up = true ∧ (lo = true ∨ neg = true) then .throws else
      .ok ((Flavor.of toUpper toLower (decide (.andNot ∈ opts)) (decide (.caseInsensitive ∈ opts)) (decide (.glyphs ∈ opts))).widen cs, up || neg) := by
  rw [alterAll_split hn ho]
  have key : ∀ r, r = raw.biUnion (fun c => if Reserved c then {c} else
      (Flavor.of toUpper toLower (decide (.andNot ∈ opts)) (decide (.caseInsensitive ∈ opts)) (decide (.glyphs ∈ opts))).fold c) →
      (alterClasses r neg >>= fun y => Res.ok ((Flavor.of toUpper toLower (decide (.andNot ∈ opts)) (decide (.caseInsensitive ∈ opts))
        (decide (.glyphs ∈ opts))).widen y.1, y.2)) = if up = true ∧ (lo = true ∨ neg = true) then .throws else
      .ok ((Flavor.of toUpper toLower (decide (.andNot ∈ opts)) (decide (.caseInsensitive ∈ opts)) (decide (.glyphs ∈ opts))).widen cs, up || neg) := by
    rintro r rfl
    rw [alterClasses_mixed (fun c hc => fold_clean _ _ _ hc) h]
    split <;> rfl
  by_cases hc : Feature.caseInsensitive ∈ opts
  · rw [if_pos hc]
    refine key (alterCase raw) ?_
    simp only [decide_eq_true hc] at h ⊢
    exact alterCase_mixed _ _ h
  · rw [if_neg hc]
    refine key raw ?_
    simp only [decide_eq_false hc] at h ⊢
    exact raw_mixed _ _ _

theorem mixed_clean {opts : List Feature} {raw cs : Finset Nat} {lo up : Bool}
    (h : RawMix (Flavor.of toUpper toLower (decide (.andNot ∈ opts)) (decide (.caseInsensitive ∈ opts)) (decide (.glyphs ∈ opts))) raw cs lo up) :
    ∀ c ∈ (Flavor.of toUpper toLower (decide (.andNot ∈ opts)) (decide (.caseInsensitive ∈ opts)) (decide (.glyphs ∈ opts))).widen cs, ¬ Reserved c := by
  intro c hc
  obtain ⟨y, hy, hc⟩ := Finset.mem_biUnion.1 hc
  have : ¬ Reserved y := by
    rw [← h.eq] at hy
    obtain ⟨z, hz, hy⟩ := Finset.mem_biUnion.1 hy
    unfold mention at hy
    rcases h.elem z hz with hu | ⟨n, k, hk, hn⟩
    · rw [if_neg hu.1] at hy
      exact fold_clean _ _ _ hu y hy
    · have hb := isUpper_class hk
      have e : classOf z = some k := by
        rcases hn with ⟨rfl, -⟩ | ⟨rfl, -⟩
        · exact hb.2.2.1
        · exact hb.2.2.2.1
      rw [if_pos (by unfold Reserved; omega), e] at hy
      have := class_range hk y hy
      unfold Reserved; omega
  rcases look_mem hc with rfl | h
  · exact this
  · unfold Reserved; omega

/-- The token made of a bracket. -/
theorem lex_bracket {opts : List Feature} (hn : opts.Nodup) (ho : ∀ f ∈ opts, f ∈ Lex.optional) {t : List Nat} {raw cs : Finset Nat} {lo up neg : Bool}
    (h : RawMix (Flavor.of toUpper toLower (decide (.andNot ∈ opts)) (decide (.caseInsensitive ∈ opts)) (decide (.glyphs ∈ opts))) raw cs lo up) {r : List Nat}
    (hl : lexRange (91 :: t) = .ok (.letters raw neg, r)) :
    lex (install opts) (91 :: t) = if up = true ∧ (lo = true ∨ neg = true) then .throws else .ok (some (.letters
      ((Flavor.of toUpper toLower (decide (.andNot ∈ opts)) (decide (.caseInsensitive ∈ opts)) (decide (.glyphs ∈ opts))).widen cs) (up || neg), r)) := by
  have hd : doLex (install opts) (91 :: t) = .ok (some (.letters raw neg, r)) := by
    refine doLex_feature (c := 91) (s1 := t) (getChar_plain (by omega)) (by decide) (install_implements hn ho).range ?_ fun g hg => ?_
    · unfold Feature.lex; dsimp only
      rw [if_pos (.inl rfl), hl]
    · cases g with
      | charRange => exact absurd rfl hg
      | _ => rfl
  unfold lex
  rw [hd, ok_bind]
  dsimp only
  rw [alterAll_mixed hn ho h]
  split
  · rfl
  · rw [ok_bind]
    dsimp only
    rw [if_neg]
    rintro ⟨c, hc⟩
    rw [Finset.mem_filter, isControl_iff] at hc
    exact mixed_clean h c hc.1 hc.2

end Pire.Lex
