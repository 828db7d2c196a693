import Verif.Proofs.CaptureOps
import Verif.Model.CaptureParse
import Verif.Spec.CapturePattern

/-!
# The actions of the parser with the capture feature
-/

namespace Pire
namespace Capture
open Spec Pire.Lex Pire.Enc Pire.Parse

/-! ### Numbering of groups -/

mutual
theorem Alt.nth_isSome (a : Alt) (k : Nat) : (a.nth k).isSome = true ↔ 1 ≤ k ∧ k ≤ a.groups := by
  match a with
  | .one c => rw [Alt.nth, Alt.groups]; exact Conj.nth_isSome c k
  | .or a c =>
    rw [Alt.nth, Alt.groups]
    have h1 := Alt.nth_isSome a k
    have h2 := Conj.nth_isSome c (k - a.groups)
    split
    · rw [h1]; omega
    · rw [h2]; omega
theorem Conj.nth_isSome (a : Conj) (k : Nat) : (a.nth k).isSome = true ↔ 1 ≤ k ∧ k ≤ a.groups := by
  match a with
  | .one c => rw [Conj.nth, Conj.groups]; exact Neg.nth_isSome c k
  | .and a c =>
    rw [Conj.nth, Conj.groups]
    have h1 := Conj.nth_isSome a k
    have h2 := Neg.nth_isSome c (k - a.groups)
    split
    · rw [h1]; omega
    · rw [h2]; omega
theorem Neg.nth_isSome (a : Neg) (k : Nat) : (a.nth k).isSome = true ↔ 1 ≤ k ∧ k ≤ a.groups := by
  match a with
  | .one c => rw [Neg.nth, Neg.groups]; exact Cat.nth_isSome c k
  | .not c => rw [Neg.nth, Neg.groups]; exact Cat.nth_isSome c k
theorem Cat.nth_isSome (a : Cat) (k : Nat) : (a.nth k).isSome = true ↔ 1 ≤ k ∧ k ≤ a.groups := by
  match a with
  | .nil => rw [Cat.nth, Cat.groups]; simp; omega
  | .snoc a c =>
    rw [Cat.nth, Cat.groups]
    have h1 := Cat.nth_isSome a k
    have h2 := Iter.nth_isSome c (k - a.groups)
    split
    · rw [h1]; omega
    · rw [h2]; omega
theorem Iter.nth_isSome (a : Iter) (k : Nat) : (a.nth k).isSome = true ↔ 1 ≤ k ∧ k ≤ a.groups := by
  match a with
  | .one t => rw [Iter.nth, Iter.groups]; exact Term.nth_isSome t k
  | .rep t _ _ => rw [Iter.nth, Iter.groups]; exact Term.nth_isSome t k
theorem Term.nth_isSome (a : Term) (k : Nat) : (a.nth k).isSome = true ↔ 1 ≤ k ∧ k ≤ a.groups := by
  match a with
  | .letters _ _ => rw [Term.nth, Term.groups]; simp; omega
  | .dot => rw [Term.nth, Term.groups]; simp; omega
  | .bol => rw [Term.nth, Term.groups]; simp; omega
  | .eol => rw [Term.nth, Term.groups]; simp; omega
  | .group a =>
    rw [Term.nth, Term.groups]
    have h1 := Alt.nth_isSome a (k - 1)
    split
    · next h => subst h; simp
    · rw [h1]; omega
end

mutual
theorem Alt.must_range (a : Alt) (k : Nat) (h : a.must k = true) : 1 ≤ k ∧ k ≤ a.groups := by
  match a with
  | .one c => rw [Alt.must] at h; rw [Alt.groups]; exact Conj.must_range c k h
  | .or a c => rw [Alt.must] at h; cases h
theorem Conj.must_range (a : Conj) (k : Nat) (h : a.must k = true) : 1 ≤ k ∧ k ≤ a.groups := by
  match a with
  | .one c => rw [Conj.must] at h; rw [Conj.groups]; exact Neg.must_range c k h
  | .and a c => rw [Conj.must] at h; cases h
theorem Neg.must_range (a : Neg) (k : Nat) (h : a.must k = true) : 1 ≤ k ∧ k ≤ a.groups := by
  match a with
  | .one c => rw [Neg.must] at h; rw [Neg.groups]; exact Cat.must_range c k h
  | .not c => rw [Neg.must] at h; cases h
theorem Cat.must_range (a : Cat) (k : Nat) (h : a.must k = true) : 1 ≤ k ∧ k ≤ a.groups := by
  match a with
  | .nil => rw [Cat.must] at h; cases h
  | .snoc a c =>
    rw [Cat.must] at h; rw [Cat.groups]
    split at h
    · have := Cat.must_range a k h; omega
    · have := Iter.must_range c _ h; omega
theorem Iter.must_range (a : Iter) (k : Nat) (h : a.must k = true) : 1 ≤ k ∧ k ≤ a.groups := by
  match a with
  | .one t => rw [Iter.must] at h; rw [Iter.groups]; exact Term.must_range t k h
  | .rep t _ _ =>
    rw [Iter.must, Bool.and_eq_true] at h; rw [Iter.groups]; exact Term.must_range t k h.2
theorem Term.must_range (a : Term) (k : Nat) (h : a.must k = true) : 1 ≤ k ∧ k ≤ a.groups := by
  match a with
  | .letters _ _ => rw [Term.must] at h; cases h
  | .dot => rw [Term.must] at h; cases h
  | .bol => rw [Term.must] at h; cases h
  | .eol => rw [Term.must] at h; cases h
  | .group a =>
    rw [Term.must] at h; rw [Term.groups]
    split at h
    · omega
    · have := Alt.must_range a _ h; omega
end

/-! ### The fields -/

/-- The number of the group that is to be captured, from here; 0 if there is none. -/
def Fields.target (s : Fields) : Nat := if s.state = 0 then s.pos else 0

/-- The fields after `n` groups. -/
def Fields.after (s : Fields) (n : Nat) : Fields :=
  if s.state = 0 ∧ 1 ≤ s.pos then
    if s.pos ≤ n then ⟨2, 1, 0, none⟩ else { s with pos := s.pos - n }
  else s

theorem after_done {pos n : Nat} (l : Nat) (r : Option Bool) (h : 1 ≤ pos) (h' : pos ≤ n) : Fields.after ⟨0, pos, l, r⟩ n = ⟨2, 1, 0, none⟩ := by
  unfold Fields.after
  dsimp only
  rw [if_pos ⟨rfl, h⟩, if_pos h']

theorem after_less {pos n : Nat} (l : Nat) (r : Option Bool) (h : n < pos) : Fields.after ⟨0, pos, l, r⟩ n = ⟨0, pos - n, l, r⟩ := by
  unfold Fields.after
  dsimp only
  rw [if_pos ⟨rfl, by omega⟩, if_neg (by omega)]

theorem after_none (l n : Nat) (r : Option Bool) : Fields.after ⟨0, 0, l, r⟩ n = ⟨0, 0, l, r⟩ := by
  unfold Fields.after
  rw [if_neg (by simp)]

theorem after_state {st : Nat} (pos l n : Nat) (r : Option Bool) (h : st ≠ 0) : Fields.after ⟨st, pos, l, r⟩ n = ⟨st, pos, l, r⟩ := by
  unfold Fields.after
  rw [if_neg (by simp [h])]

/-- The cases. -/
theorem after_cases (st pos n : Nat) : (st = 0 ∧ 1 ≤ pos ∧ pos ≤ n) ∨ (st = 0 ∧ n < pos) ∨ (st = 0 ∧ pos = 0) ∨ st ≠ 0 := by omega

theorem Fields.after_zero (s : Fields) : s.after 0 = s := by
  obtain ⟨st, pos, l, r⟩ := s
  rcases after_cases st pos 0 with ⟨-, h1, h2⟩ | ⟨rfl, h⟩ | ⟨rfl, rfl⟩ | h
  · omega
  · exact after_less l r h
  · exact after_none l 0 r
  · exact after_state pos l 0 r h

theorem Fields.after_rep {s : Fields} (h : s.rep = none) (n : Nat) : (s.after n).rep = none := by
  unfold Fields.after
  split
  · split
    · rfl
    · exact h
  · exact h

theorem Fields.after_after (s : Fields) (a b : Nat) : (s.after a).after b = s.after (a + b) := by
  obtain ⟨st, pos, l, r⟩ := s
  rcases after_cases st pos a with ⟨rfl, h1, h2⟩ | ⟨rfl, h⟩ | ⟨rfl, rfl⟩ | h
  · rw [after_done l r h1 h2, after_done l r h1 (by omega), after_state _ _ _ _ (by omega)]
  · rw [after_less l r h]
    by_cases h2 : pos ≤ a + b
    · rw [after_done l r (by omega) h2, after_done l r (by omega) (by omega)]
    · rw [after_less l r (by omega), after_less l r (by omega), Nat.sub_sub]
  · rw [after_none, after_none, after_none]
  · rw [after_state _ _ _ _ h, after_state _ _ _ _ h, after_state _ _ _ _ h]

theorem target_zero (pos l : Nat) (r : Option Bool) : Fields.target ⟨0, pos, l, r⟩ = pos := rfl

theorem target_state {st : Nat} (pos l : Nat) (r : Option Bool) (h : st ≠ 0) : Fields.target ⟨st, pos, l, r⟩ = 0 := if_neg h

theorem Fields.target_after (s : Fields) (n : Nat) : (s.after n).target = s.target - n := by
  obtain ⟨st, pos, l, r⟩ := s
  rcases after_cases st pos n with ⟨rfl, h1, h2⟩ | ⟨rfl, h⟩ | ⟨rfl, rfl⟩ | h
  · rw [after_done l r h1 h2, target_zero, target_state _ _ _ (by omega)]; omega
  · rw [after_less l r h, target_zero, target_zero]
  · rw [after_none, target_zero]; omega
  · rw [after_state _ _ _ _ h, target_state _ _ _ h]; omega

theorem opened_more {pos : Nat} (l : Nat) (r : Option Bool) (h : 1 < pos) : Fields.opened ⟨0, pos, l, r⟩ = ⟨0, pos - 1, l, r⟩ := by
  unfold Fields.opened
  rw [if_pos ⟨rfl, h⟩]

theorem opened_this (l : Nat) (r : Option Bool) : Fields.opened ⟨0, 1, l, r⟩ = ⟨1, 1, 0, r⟩ := rfl

theorem opened_none (l : Nat) (r : Option Bool) : Fields.opened ⟨0, 0, l, r⟩ = ⟨0, 0, l, r⟩ := rfl

theorem opened_inside (pos l : Nat) (r : Option Bool) : Fields.opened ⟨1, pos, l, r⟩ = ⟨1, pos, l + 1, r⟩ := rfl

theorem opened_past {st : Nat} (pos l : Nat) (r : Option Bool) (h : 1 < st) : Fields.opened ⟨st, pos, l, r⟩ = ⟨st, pos, l, r⟩ := by
  unfold Fields.opened
  dsimp only
  rw [if_neg (by omega), if_neg (by omega), if_neg (by omega)]

/-- The cases. -/
theorem opened_cases (st pos : Nat) : (st = 0 ∧ 1 < pos) ∨ (st = 0 ∧ pos = 1) ∨ (st = 0 ∧ pos = 0) ∨ st = 1 ∨ 1 < st := by omega

theorem Fields.opened_rep (s : Fields) : s.opened.rep = s.rep := by
  unfold Fields.opened
  split
  · rfl
  · split
    · rfl
    · split <;> rfl

theorem Fields.opened_target (s : Fields) : s.opened.target = s.target - 1 := by
  obtain ⟨st, pos, l, r⟩ := s
  rcases opened_cases st pos with ⟨rfl, h⟩ | ⟨rfl, rfl⟩ | ⟨rfl, rfl⟩ | rfl | h
  · rw [opened_more l r h, target_zero, target_zero]
  · rw [opened_this]; rfl
  · rfl
  · rfl
  · rw [opened_past _ _ _ h, target_state _ _ _ (by omega)]

theorem Fields.closed {s : Fields} (h : s.rep = none) (n : Nat) (f : Fsm) :
    (s.opened.after n).parenthesized f = (if s.target = 1 then setCaptureMark f else f, s.after (n + 1)) := by
  obtain ⟨st, pos, level, rep⟩ := s
  obtain rfl : rep = none := h
  have hrep : ∀ a b c, Fields.parenthesized ⟨a, b, c, none⟩ f =
      if a = 1 ∧ c = 0 then (setCaptureMark f, ⟨2, b, c, none⟩) else if a = 1 ∧ c > 0 then (f, ⟨a, b, c - 1, none⟩) else (f, ⟨a, b, c, none⟩) :=
    fun a b c => rfl
  rcases opened_cases st pos with ⟨rfl, h⟩ | ⟨rfl, rfl⟩ | ⟨rfl, rfl⟩ | rfl | h
  · rw [opened_more _ _ h, target_zero, if_neg (by omega)]
    by_cases h2 : pos ≤ n + 1
    · rw [after_done _ _ (by omega) (by omega), after_done _ _ (by omega) h2, hrep, if_neg (by omega), if_neg (by omega)]
    · rw [after_less _ _ (by omega), after_less _ _ (by omega), hrep, if_neg (by omega), if_neg (by omega), Nat.sub_sub, Nat.add_comm]
  · rw [opened_this, target_zero, if_pos rfl, after_state _ _ _ _ (by omega), after_done _ _ (by omega) (by omega), hrep, if_pos ⟨rfl, rfl⟩]
  · rw [opened_none, target_zero, if_neg (by omega), after_none, after_none, hrep, if_neg (by omega), if_neg (by omega)]
  · rw [opened_inside, target_state _ _ _ (by omega), if_neg (by omega), after_state _ _ _ _ (by omega), after_state _ _ _ _ (by omega), hrep,
      if_neg (by omega), if_pos (by omega), Nat.add_sub_cancel]
  · rw [opened_past _ _ _ h, target_state _ _ _ (by omega), if_neg (by omega), after_state _ _ _ _ (by omega), after_state _ _ _ _ (by omega), hrep,
      if_neg (by omega), if_neg (by omega)]

theorem Fields.repeated {s : Fields} (h : s.rep = none) (lz : Bool) (f : Fsm) :
    (s.counted lz).parenthesized f = (setRepetitionMark f !lz, s) := by
  obtain ⟨st, pos, level, rep⟩ := s
  obtain rfl : rep = none := h
  rfl

/-! ### Trees -/

theorem or_split {α : Type} {o o' : Option α} {k g : Nat} {p : Nat} (h : o.isSome = true ↔ 1 ≤ k ∧ k ≤ g) (h' : o'.isSome = true ↔ 1 ≤ k - g ∧ k - g ≤ p) :
    (if k ≤ g then o else o') = (o <|> o') ∧ (o = none ∨ o' = none) := by
  have h1 : k ≤ g → o' = none := by
    intro hk
    cases o' with
    | none => rfl
    | some x => have := h'.1 rfl; omega
  have h2 : ¬ k ≤ g → o = none := by
    intro hk
    cases o with
    | none => rfl
    | some x => have := h.1 rfl; omega
  split
  · next hk => rw [h1 hk]; exact ⟨by cases o <;> rfl, .inr rfl⟩
  · next hk => rw [h2 hk]; exact ⟨by cases o' <;> rfl, .inl rfl⟩

theorem map_or {α β : Type} (f : α → β) (o o' : Option α) : (o <|> o').map f = (o.map f <|> o'.map f) := by cases o <;> rfl

theorem must_split {m m' : Bool} {k g p : Nat} (h : m = true → 1 ≤ k ∧ k ≤ g) (h' : m' = true → 1 ≤ k - g ∧ k - g ≤ p) :
    (if k ≤ g then m else m') = (m || m') := by
  split
  · have : m' = false := by cases m' with
      | false => rfl
      | true => have := h' rfl; omega
    rw [this, Bool.or_false]
  · have : m = false := by cases m with
      | false => rfl
      | true => have := h rfl; omega
    rw [this, Bool.false_or]

/-- What a finished automaton has to be. -/
def Whole (e : Encoding) (L : Language Nat) (emp : Bool) (o : Option Alt) (must : Bool) (s : Drive) (r : Fsm × Drive) : Prop :=
  FsmSpec L emp r.1 ∧ r.1.Raw ∧ Marked true (o.map fun b => b.den (codec e)) must r.1 ∧ r.2 = s

mutual
theorem evalAlt_marked (e : Encoding) (a : Alt) (ok : a.Ok) (hs : a.simple = true) (s : Fields) (hr : s.rep = none) (l : List Bool) (hl : a.counts ≤ l.length) :
    (evalAlt e a (s, l)).Sat (a.plain = false)
      (Whole e (a.den (codec e)) a.isEmpty (a.nth s.target) (a.must s.target) (s.after a.groups, l.drop a.counts)) := by
  match a with
  | .one c =>
    rw [evalAlt, Alt.den, Alt.plain, Alt.nth, Alt.must, Alt.groups, Alt.counts]
    rw [Alt.Ok] at ok
    rw [Alt.simple] at hs
    rw [Alt.counts] at hl
    exact evalConj_marked e c ok hs s hr l hl
  | .or a c =>
    rw [evalAlt, Alt.den, Alt.plain, Alt.nth, Alt.must, Alt.groups, Alt.counts]
    rw [Alt.Ok] at ok
    rw [Alt.simple, Bool.and_eq_true] at hs
    rw [Alt.counts] at hl
    refine ((evalAlt_marked e a ok.1 hs.1 s hr l (by omega)).mono (fun h => by simp [h]) fun _ h => h).bind fun x hx => ?_
    obtain ⟨x, t⟩ := x
    obtain ⟨hx, -, hm, rfl⟩ := hx
    dsimp only at hx hm ⊢
    refine ((evalConj_marked e c ok.2 hs.2 (s.after a.groups) (Fields.after_rep hr _) (l.drop a.counts) (by rw [List.length_drop]; omega)).mono
      (fun h => by simp [h]) fun _ h => h).bind fun y hy => ?_
    obtain ⟨y, t⟩ := y
    obtain ⟨hy, -, hm', rfl⟩ := hy
    dsimp only at hy hm' ⊢
    rw [Fields.target_after] at hm'
    have us := Fsm.union_shape hx.1.wf hx.1.coh hx.1.alt hy.1.wf hy.1.coh hy.1.alt
    obtain ⟨e1, e2⟩ := or_split (Alt.nth_isSome a s.target) (Conj.nth_isSome c (s.target - a.groups))
    refine ⟨⟨hx.1.union hy.1, by rw [us.lang, hx.2.1, hy.2.1], fun _ => us.init_not_fin⟩, us.raw, ?_, ?_⟩
    · rw [e1, map_or]
      exact hm.union hm' (by rcases e2 with h | h <;> simp [h])
    · rw [Fields.after_after, List.drop_drop]
theorem evalConj_marked (e : Encoding) (c : Conj) (ok : c.Ok) (hs : c.simple = true) (s : Fields) (hr : s.rep = none) (l : List Bool) (hl : c.counts ≤ l.length) :
    (evalConj e c (s, l)).Sat (c.plain = false)
      (Whole e (c.den (codec e)) c.isEmpty (c.nth s.target) (c.must s.target) (s.after c.groups, l.drop c.counts)) := by
  match c with
  | .one n =>
    rw [evalConj, Conj.den, Conj.plain, Conj.nth, Conj.must, Conj.groups, Conj.counts]
    rw [Conj.Ok] at ok
    rw [Conj.simple] at hs
    rw [Conj.counts] at hl
    exact evalNeg_marked e n ok hs s hr l hl
  | .and c n => rw [Conj.simple] at hs; cases hs
theorem evalNeg_marked (e : Encoding) (n : Neg) (ok : n.Ok) (hs : n.simple = true) (s : Fields) (hr : s.rep = none) (l : List Bool) (hl : n.counts ≤ l.length) :
    (evalNeg e n (s, l)).Sat (n.plain = false)
      (Whole e (n.den (codec e)) n.isEmpty (n.nth s.target) (n.must s.target) (s.after n.groups, l.drop n.counts)) := by
  match n with
  | .one c =>
    rw [evalNeg, Neg.den, Neg.plain, Neg.nth, Neg.must, Neg.groups, Neg.counts]
    rw [Neg.Ok] at ok
    rw [Neg.simple] at hs
    rw [Neg.counts] at hl
    exact (evalCat_marked e c ok hs s hr l hl).mono (fun h => h) fun f h => ⟨⟨h.1.good, h.2.1, h.2.2.1⟩, h.1.raw, h.2.2.2.1, h.2.2.2.2.2⟩
  | .not c => rw [Neg.simple] at hs; cases hs
theorem evalCat_marked (e : Encoding) (c : Cat) (ok : c.Ok) (hs : c.simple = true) (s : Fields) (hr : s.rep = none) (l : List Bool) (hl : c.counts ≤ l.length) :
    (evalCat e c (s, l)).Sat (c.plain = false) fun r => Appendable r.1 ∧ r.1.Lang = c.den (codec e) ∧ (c.isEmpty = false → r.1.initial ∉ r.1.finals) ∧
      Marked true ((c.nth s.target).map fun b => b.den (codec e)) (c.must s.target) r.1 ∧ r.1.initial = 0 ∧ r.2 = (s.after c.groups, l.drop c.counts) := by
  match c with
  | .nil =>
    rw [evalCat, Cat.den, Cat.nth, Cat.must, Cat.groups, Cat.counts]
    exact ⟨.init, Fsm.lang_init, (fun h => by cases h), .init, rfl, by rw [Fields.after_zero, List.drop_zero]⟩
  | .snoc c i =>
    rw [evalCat, Cat.den, Cat.plain, Cat.nth, Cat.must, Cat.groups, Cat.counts]
    rw [Cat.Ok] at ok
    rw [Cat.simple, Bool.and_eq_true] at hs
    rw [Cat.counts] at hl
    refine ((evalCat_marked e c ok.1 hs.1 s hr l (by omega)).mono (fun h => by simp [h]) fun _ h => h).bind fun a ha => ?_
    obtain ⟨a, t⟩ := a
    obtain ⟨ha, hal, hae, hm, hz, rfl⟩ := ha
    dsimp only at ha hal hae hm hz ⊢
    refine ((evalIter_marked e i ok.2.1 hs.2 (s.after c.groups) (Fields.after_rep hr _) (l.drop c.counts) (by rw [List.length_drop]; omega)).mono
      (fun h => by simp [h]) fun _ h => h).bind fun v hv => ?_
    obtain ⟨v, t⟩ := v
    obtain ⟨hv, hvp, hm', rfl⟩ := hv
    dsimp only at hv hvp hm' ⊢
    rw [ok.2.2] at hv
    rw [Fields.target_after] at hm'
    obtain ⟨e1, e2⟩ := or_split (Cat.nth_isSome c s.target) (Iter.nth_isSome i (s.target - c.groups))
    have e3 := must_split (Cat.must_range c s.target) (Iter.must_range i (s.target - c.groups))
    rw [e1, map_or, e3]
    refine ((Sat.and (appendIteration_sat e ha hv) (appendIteration_marked e ha hv hz hm hm' (by rcases e2 with h | h <;> simp [h]))).mono
      (fun h => by simp [hvp h]) fun _ h => h).bind fun g hg => ?_
    obtain ⟨⟨g1, g2, g3⟩, g4, g5⟩ := hg
    exact ⟨g1, by rw [g2, hal], fun _ => g3, g4, g5, by rw [Fields.after_after, List.drop_drop]⟩
theorem evalIter_marked (e : Encoding) (i : Iter) (ok : i.Ok) (hs : i.simple = true) (s : Fields) (hr : s.rep = none) (l : List Bool) (hl : i.counts ≤ l.length) :
    (evalIter e i (s, l)).Sat (i.plain = false) fun r => ValSpec e (i.den (codec e)) i.isEmpty r.1 ∧ (r.1.plain = false → i.plain = false) ∧
      ValMarked ((i.nth s.target).map fun b => b.den (codec e)) (i.must s.target) r.1 ∧ r.2 = (s.after i.groups, l.drop i.counts) := by
  match i with
  | .one t =>
    rw [evalIter, Iter.den, Iter.plain, Iter.nth, Iter.must, Iter.groups, Iter.counts]
    rw [Iter.Ok] at ok
    rw [Iter.simple] at hs
    rw [Iter.counts] at hl
    exact evalTerm_marked e t ok hs s hr l hl
  | .rep t lo hi =>
    rw [evalIter, Iter.den, Iter.plain, Iter.nth, Iter.must, Iter.groups, Iter.counts]
    rw [Iter.Ok] at ok
    rw [Iter.simple] at hs
    rw [Iter.counts] at hl
    refine (evalTerm_marked e t ok.1 hs s hr l (by omega)).bind fun v hv => ?_
    obtain ⟨v, t'⟩ := v
    obtain ⟨hv, hvp, hm, rfl⟩ := hv
    dsimp only at hv hvp hm ⊢
    refine ((Sat.and (convertToFsm_sat e hv) (convertToFsm_marked e hv hm)).mono hvp fun _ h => h).bind fun f hf => ?_
    obtain ⟨hf, hfm⟩ := hf
    refine ((Sat.and (repeatAction_sat hf.1 hf.2.1 hf.2.2 ok.2.1 ok.2.2) (repeatAction_marked hfm ok.2.1)).mono (fun h => h.elim) fun _ h => h).bind fun g hg => ?_
    obtain ⟨hg, hgm⟩ := hg
    obtain ⟨x, xs, hx⟩ : ∃ x xs, l.drop t.counts = x :: xs := by
      cases h : l.drop t.counts with
      | nil => rw [List.drop_eq_nil_iff] at h; omega
      | cons x xs => exact ⟨x, xs, rfl⟩
    rw [hx]
    dsimp only
    rw [Fields.repeated (Fields.after_rep hr _)]
    have hrm := hgm.repetition (!x)
    obtain ⟨-, hs1, hs2, hs3, -⟩ := setRepetitionMark_spec hg.1.wf (!x)
    refine ⟨⟨setRepetitionMark_good hg.1 _, by rw [setRepetitionMark_lang hg.1.wf, hg.2.1], fun h => ?_⟩, (fun h => by cases h), hrm, ?_⟩
    · rw [hs2, hs3, Finset.mem_singleton]
      have := hg.1.wf.init_lt
      omega
    · rw [← List.drop_drop, hx]; rfl
theorem evalTerm_marked (e : Encoding) (t : Term) (ok : t.Ok) (hs : t.simple = true) (s : Fields) (hr : s.rep = none) (l : List Bool) (hl : t.counts ≤ l.length) :
    (evalTerm e t (s, l)).Sat (t.plain = false) fun r => ValSpec e (t.den (codec e)) t.isEmpty r.1 ∧ (r.1.plain = false → t.plain = false) ∧
      ValMarked ((t.nth s.target).map fun b => b.den (codec e)) (t.must s.target) r.1 ∧ r.2 = (s.after t.groups, l.drop t.counts) := by
  match t with
  | .letters cs neg =>
    rw [evalTerm, Term.plain, Term.nth, Term.must, Term.groups, Term.counts]
    rw [Term.Ok] at ok
    exact ⟨⟨ok, rfl⟩, fun h => h, ⟨rfl, rfl⟩, by rw [Fields.after_zero, List.drop_zero]⟩
  | .dot =>
    rw [evalTerm, Term.den, Term.nth, Term.must, Term.groups, Term.counts]
    exact ⟨rfl, (fun h => by cases h), ⟨rfl, rfl⟩, by rw [Fields.after_zero, List.drop_zero]⟩
  | .bol =>
    rw [evalTerm, Term.den, Term.nth, Term.must, Term.groups, Term.counts]
    exact ⟨rfl, (fun h => by cases h), ⟨rfl, rfl⟩, by rw [Fields.after_zero, List.drop_zero]⟩
  | .eol =>
    rw [evalTerm, Term.den, Term.nth, Term.must, Term.groups, Term.counts]
    exact ⟨rfl, (fun h => by cases h), ⟨rfl, rfl⟩, by rw [Fields.after_zero, List.drop_zero]⟩
  | .group a =>
    rw [evalTerm, Term.den, Term.plain, Term.nth, Term.must, Term.groups, Term.counts]
    rw [Term.Ok] at ok
    rw [Term.simple] at hs
    rw [Term.counts] at hl
    dsimp only
    refine (evalAlt_marked e a ok hs s.opened (by rw [Fields.opened_rep, hr]) l hl).bind fun f hf => ?_
    obtain ⟨f, t'⟩ := f
    obtain ⟨hf, -, hm, rfl⟩ := hf
    dsimp only at hf hm ⊢
    rw [Fields.closed hr]
    rw [Fields.opened_target] at hm
    by_cases hk : s.target = 1
    · rw [if_pos hk, if_pos hk, if_pos hk]
      have hn : a.nth (s.target - 1) = none := by
        have := Alt.nth_isSome a (s.target - 1)
        cases h : a.nth (s.target - 1) with
        | none => rfl
        | some x => rw [h] at this; have := this.1 rfl; omega
      rw [hn] at hm
      have hc := Marked.capture hm
      rw [hf.2.1] at hc
      obtain ⟨-, hs1, hs2, hs3, -⟩ := setCaptureMark_spec hf.1.wf
      refine ⟨⟨setCaptureMark_good hf.1, by rw [setCaptureMark_lang hf.1.wf, hf.2.1], fun h => ?_⟩, (fun h => by cases h), hc, rfl⟩
      rw [hs2, hs3, Finset.mem_singleton]; omega
    · rw [if_neg hk, if_neg hk, if_neg hk]
      exact ⟨hf, (fun h => by cases h), hm.weaken, rfl⟩
end

end Capture
end Pire
