import Verif.Proofs.ParserStack

/-!
# Every tree can be parsed
-/

namespace Pire.Stack

open Pire.Spec Pire.Lex Pire.Enc Pire.Parse

variable {e : Encoding}

/-- From here, events that read these tokens have this outcome. -/
def Gets (e : Encoding) (w : World) (ts : List Tok) {α : Type} (r : Res α) (Q : α → World → Prop) : Prop :=
  match r with
  | .ok v => ∃ evs w', steps e w evs = some (.ok w') ∧ reads evs = ts ∧ Q v w'
  | .throws => ∃ evs h, steps e w evs = some (.throws h) ∧ reads evs <+: ts
  | .bad => True

theorem steps_append (l m : List Event) : ∀ w : World, steps e w (l ++ m) = match steps e w l with | some (.ok w') => steps e w' m | r => r := by
  induction l with
  | nil => intro w; rfl
  | cons a l ih =>
    intro w
    rw [List.cons_append, steps, steps]
    cases hs : step e w a with
    | none => rfl
    | some r =>
      cases r with
      | ok w' => exact ih w'
      | throws h => rfl
      | bad => rfl

theorem reads_append (l m : List Event) : reads (l ++ m) = reads l ++ reads m := by
  induction l with
  | nil => rfl
  | cons a l ih => cases a <;> simp [reads, ih]

theorem Gets.events {α : Type} {w w' : World} {evs : List Event} {us : List Tok} {r : Res α} {Q : α → World → Prop} (h : steps e w evs = some (.ok w'))
    (hg : Gets e w' us r Q) : Gets e w (reads evs ++ us) r Q := by
  cases r with
  | ok v =>
    obtain ⟨l, x, h1, h2, h3⟩ := hg
    exact ⟨evs ++ l, x, by rw [steps_append, h]; exact h1, by rw [reads_append, h2], h3⟩
  | throws =>
    obtain ⟨l, x, h1, h2⟩ := hg
    exact ⟨evs ++ l, x, by rw [steps_append, h]; exact h1, by rw [reads_append]; exact (List.prefix_append_right_inj _).2 h2⟩
  | bad => trivial

theorem Gets.bind {α β : Type} {w : World} {ts us : List Tok} {r : Res α} {f : α → Res β} {Q : α → World → Prop} {R : β → World → Prop} (h : Gets e w ts r Q)
    (hf : ∀ v w', Q v w' → Gets e w' us (f v) R) : Gets e w (ts ++ us) (r >>= f) R := by
  cases r with
  | ok v =>
    obtain ⟨l, x, h1, rfl, h3⟩ := h
    exact (hf v x h3).events h1
  | throws =>
    obtain ⟨l, x, h1, h2⟩ := h
    exact ⟨l, x, h1, h2.trans (List.prefix_append _ _)⟩
  | bad => trivial

theorem Gets.reduces {α : Type} {w : World} {p : Prod} {d : Did World} {r : Res α} {Q : α → World → Prop} (h : reduce e p w = some d)
    (hd : match r with | .ok v => ∃ w', d = .ok w' ∧ Q v w' | .throws => ∃ h, d = .throws h | .bad => True) : Gets e w [] r Q := by
  cases r with
  | ok v =>
    obtain ⟨w', rfl, hq⟩ := hd
    exact ⟨[.reduce p], w', by simp [steps, step, h], rfl, hq⟩
  | throws =>
    obtain ⟨x, rfl⟩ := hd
    exact ⟨[.reduce p], x, by simp [steps, step, h], List.prefix_refl _⟩
  | bad => trivial

/-- A symbol with this value has been pushed. -/
def Pushed (w : World) (s : Sym) (v : Held) (w' : World) : Prop :=
  ∃ a, w'.stack = (s, some a) :: w.stack ∧ w'.look = none ∧ w'.ret = w.ret ∧ w.heap.fresh ≤ a ∧ a < w'.heap.fresh ∧
    (∀ b < w.heap.fresh, w'.heap.cells b = w.heap.cells b) ∧ w'.heap.cells a = some v

/-- Only the symbol changes. -/
theorem Gets.rename {α : Type} {w : World} {ts : List Tok} {r : Res α} {s s' : Sym} {p : Prod} {g : α → Held} (h : Gets e w ts r fun v => Pushed w s (g v))
    (hp : ∀ (w : World) (a : Option Nat) (l : List Entry), w.stack = (s, a) :: l → reduce e p w = some (.ok { w with stack := (s', a) :: l })) :
    Gets e w ts r fun v => Pushed w s' (g v) := by
  cases r with
  | ok v =>
    obtain ⟨l, x, h1, rfl, a, h3, h4, h5, h6, h7, h8, h9⟩ := h
    exact ⟨l ++ [.reduce p], { x with stack := (s', some a) :: w.stack }, by rw [steps_append, h1]; simp [steps, step, hp x _ _ h3], by simp [reads_append, reads],
      a, rfl, h4, h5, h6, h7, h8, h9⟩
  | throws => exact h
  | bad => trivial

/-- A token without a value is shifted. -/
theorem shift_none {w : World} (hl : w.look = none) {t : Tok} {s : Sym} (ht : yylex w.heap t = ((s, none), w.heap)) :
    steps e w [.read t, .shift] = some (.ok { w with stack := (s, none) :: w.stack }) := by
  obtain ⟨stack, look, heap, ret⟩ := w
  cases hl
  dsimp only at ht
  simp [steps, step, ht]

/-- A token with a value is shifted. -/
theorem shift_some {w : World} (hl : w.look = none) {t : Tok} {s : Sym} {v : Held} (ht : yylex w.heap t = ((s, some w.heap.fresh), w.heap.new v)) :
    steps e w [.read t, .shift] = some (.ok { w with stack := (s, some w.heap.fresh) :: w.stack, heap := w.heap.new v }) := by
  obtain ⟨stack, look, heap, ret⟩ := w
  cases hl
  dsimp only at ht
  simp [steps, step, ht]

theorem Gets.token {w : World} (hl : w.look = none) {t : Tok} {s : Sym} {v : Val} (ht : yylex w.heap t = ((s, some w.heap.fresh), w.heap.new (.val v))) :
    Gets e w [t] (.ok v) fun v => Pushed w s (.val v) :=
  ⟨_, _, shift_some hl ht, rfl, w.heap.fresh, rfl, hl, rfl, le_rfl, Nat.lt_succ_self _,
    fun b hb => by simp [Heap.new, Function.update_of_ne (show b ≠ w.heap.fresh by omega)], by simp [Heap.new]⟩

mutual

theorem alt_gets : ∀ (t : Alt) (w : World), w.look = none → Gets e w t.spell (evalAlt e t) fun f => Pushed w .alternative (.val (.fsm f))
  | .one c, w, hl => by
    rw [evalAlt, Alt.spell]
    exact (conj_gets c w hl).rename (p := .altOne) fun w a l hs => by simp [reduce, hs]
  | .or a c, w, hl => by
    rw [evalAlt, Alt.spell]
    refine (alt_gets a w hl).bind ?_
    rintro x w1 ⟨p, s1, l1, r1, lo1, hi1, k1, v1⟩
    refine Gets.events (evs := [.read .bar, .shift]) (us := c.spell) (shift_none l1 rfl) ?_
    rw [← List.append_nil c.spell]
    refine (conj_gets c { w1 with stack := (.bar, none) :: w1.stack } l1).bind ?_
    rintro y w2 ⟨q, s2, l2, r2, lo2, hi2, k2, v2⟩
    dsimp only at s2 r2 lo2 k2
    rw [s1] at s2
    have hv : w2.heap.cells p = some (.val (.fsm x)) := by rw [k2 p hi1, v1]
    have hne : q ≠ p := by omega
    refine Gets.reduces (p := .altOr) (by simp only [reduce, s2]; rfl) ⟨?_, ?_, ?_⟩
    rotate_left
    · rw [convert_fsm v2, did_bind]
      dsimp only
      rw [convert_fsm hv, did_bind]
      dsimp only
      rw [put_some hv, did_bind, delete_none, did_bind, delete_some (u := .val (.fsm y)) (by simp [Function.update_of_ne hne, v2]), did_bind]
      rfl
    · refine ⟨p, rfl, l2, by rw [← r1, ← r2], lo1, by dsimp only; omega, fun b hb => ?_, by simp [Function.update_of_ne hne.symm]⟩
      simp [Function.update_of_ne (show b ≠ q by omega), Function.update_of_ne (show b ≠ p by omega), k2 b (by omega), k1 b hb]

theorem conj_gets : ∀ (t : Conj) (w : World), w.look = none → Gets e w t.spell (evalConj e t) fun f => Pushed w .conjunction (.val (.fsm f))
  | .one c, w, hl => by
    rw [evalConj, Conj.spell]
    exact (neg_gets c w hl).rename (p := .conjOne) fun w a l hs => by simp [reduce, hs]
  | .and a c, w, hl => by
    rw [evalConj, Conj.spell]
    refine (conj_gets a w hl).bind ?_
    rintro x w1 ⟨p, s1, l1, r1, lo1, hi1, k1, v1⟩
    refine Gets.events (evs := [.read .amp, .shift]) (us := c.spell) (shift_none l1 rfl) ?_
    rw [← List.append_nil c.spell]
    refine (neg_gets c { w1 with stack := (.and, none) :: w1.stack } l1).bind ?_
    rintro y w2 ⟨q, s2, l2, r2, lo2, hi2, k2, v2⟩
    dsimp only at s2 r2 lo2 k2
    rw [s1] at s2
    have hv : w2.heap.cells p = some (.val (.fsm x)) := by rw [k2 p hi1, v1]
    have hne : q ≠ p := by omega
    refine Gets.reduces (p := .conjAnd) (by simp only [reduce, s2]; rfl) ?_
    rw [convert_fsm v2, did_bind]
    dsimp only
    rw [convert_fsm hv, did_bind]
    dsimp only
    cases hz : x.inter y with
    | none => exact ⟨_, rfl⟩
    | some z =>
      refine ⟨?_, ?_, ?_⟩
      rotate_left
      · simp only [lift, run]
        rw [did_bind, put_some hv, did_bind, delete_none, did_bind, delete_some (u := .val (.fsm y)) (by simp [Function.update_of_ne hne, v2]), did_bind]
        rfl
      · refine ⟨p, rfl, l2, by rw [← r1, ← r2], lo1, by dsimp only; omega, fun b hb => ?_, by simp [Function.update_of_ne hne.symm]⟩
        simp [Function.update_of_ne (show b ≠ q by omega), Function.update_of_ne (show b ≠ p by omega), k2 b (by omega), k1 b hb]

theorem neg_gets : ∀ (t : Neg) (w : World), w.look = none → Gets e w t.spell (evalNeg e t) fun f => Pushed w .negation (.val (.fsm f))
  | .one c, w, hl => by
    rw [evalNeg, Neg.spell]
    exact (cat_gets c w hl).rename (p := .negOne) fun w a l hs => by simp [reduce, hs]
  | .not c, w, hl => by
    rw [evalNeg, Neg.spell]
    refine Gets.events (evs := [.read .tilde, .shift]) (us := c.spell) (shift_none hl rfl) ?_
    rw [← List.append_nil c.spell]
    refine (cat_gets c { w with stack := (.not, none) :: w.stack } hl).bind ?_
    rintro x w2 ⟨q, s2, l2, r2, lo2, hi2, k2, v2⟩
    dsimp only at s2 r2 lo2 k2
    refine Gets.reduces (p := .negNot) (by simp only [reduce, s2]; rfl) ?_
    rw [convert_fsm v2, did_bind]
    dsimp only
    cases hz : x.complement with
    | none => exact ⟨_, rfl⟩
    | some z =>
      refine ⟨?_, ?_, ?_⟩
      rotate_left
      · simp only [lift, run]
        rw [did_bind, put_some v2, did_bind, delete_none, did_bind]
        rfl
      · refine ⟨q, rfl, l2, r2, lo2, hi2, fun b hb => ?_, by simp⟩
        simp [Function.update_of_ne (show b ≠ q by omega), k2 b (by omega)]

theorem cat_gets : ∀ (t : Cat) (w : World), w.look = none → Gets e w t.spell (evalCat e t) fun f => Pushed w .concatenation (.val (.fsm f))
  | .nil, w, hl => by
    rw [evalCat, Cat.spell]
    refine Gets.reduces (p := .catNil) rfl ⟨_, rfl, w.heap.fresh, rfl, hl, rfl, le_rfl, Nat.lt_succ_self _, fun b hb => ?_, by simp [Heap.new]⟩
    simp [Heap.new, Function.update_of_ne (show b ≠ w.heap.fresh by omega)]
  | .snoc a c, w, hl => by
    rw [evalCat, Cat.spell]
    refine (cat_gets a w hl).bind ?_
    rintro x w1 ⟨p, s1, l1, r1, lo1, hi1, k1, v1⟩
    rw [← List.append_nil c.spell]
    refine (iter_gets c _ l1).bind ?_
    rintro y w2 ⟨q, s2, l2, r2, lo2, hi2, k2, v2⟩
    rw [s1] at s2
    have hv : w2.heap.cells p = some (.val (.fsm x)) := by rw [k2 p hi1, v1]
    have hne : q ≠ p := by omega
    refine Gets.reduces (p := .catSnoc) (by simp only [reduce, s2]; rfl) ?_
    rw [convert_fsm hv, did_bind]
    dsimp only
    rw [held_some v2, did_bind]
    dsimp only
    cases hz : appendIteration e x y with
    | bad => trivial
    | throws => exact ⟨_, rfl⟩
    | ok z =>
      refine ⟨?_, ?_, ?_⟩
      rotate_left
      · simp only [run]
        rw [did_bind, put_some hv, did_bind, delete_some (u := .val y) (by simp [Function.update_of_ne hne, v2]), did_bind]
        rfl
      · refine ⟨p, rfl, l2, by rw [← r1, ← r2], lo1, by dsimp only; omega, fun b hb => ?_, by simp [Function.update_of_ne hne.symm]⟩
        simp [Function.update_of_ne (show b ≠ q by omega), Function.update_of_ne (show b ≠ p by omega), k2 b (by omega), k1 b hb]

theorem iter_gets : ∀ (t : Iter) (w : World), w.look = none → Gets e w t.spell (evalIter e t) fun f => Pushed w .iteration (.val f)
  | .one c, w, hl => by
    rw [evalIter, Iter.spell]
    exact (term_gets c w hl).rename (p := .iterOne) fun w a l hs => by simp [reduce, hs]
  | .rep c lo hi, w, hl => by
    rw [evalIter, Iter.spell]
    refine (term_gets c w hl).bind ?_
    rintro v w1 ⟨p, s1, l1, r1, lo1, hi1, k1, v1⟩
    refine Gets.events (evs := [.read (.count lo hi), .shift]) (us := []) (shift_some (v := .count lo hi) l1 rfl) ?_
    have hv : (w1.heap.new (.count lo hi)).cells p = some (.val v) := by simp [Heap.new, Function.update_of_ne (show p ≠ w1.heap.fresh by omega), v1]
    cases hf : convertToFsm e v with
    | bad => trivial
    | throws =>
      refine Gets.reduces (p := .iterRep) (by simp only [reduce, s1]; rfl) ?_
      rw [convert_throws hv hf]
      exact ⟨_, rfl⟩
    | ok f =>
    show Gets e _ [] (repeatAction f lo hi >>= fun x => Res.ok (Val.fsm x)) _
    cases hr : repeatAction f lo hi with
    | bad => trivial
    | throws =>
      refine Gets.reduces (p := .iterRep) (by simp only [reduce, s1]; rfl) ?_
      rw [convert_val hv hf, did_bind]
      dsimp only
      rw [held_some (v := .count lo hi) (by simp [Heap.new, Function.update_of_ne (show w1.heap.fresh ≠ p by omega)]), did_bind]
      dsimp only
      rw [hr]
      exact ⟨_, rfl⟩
    | ok z =>
      show Gets e _ [] (Res.ok (Val.fsm z)) _
      refine Gets.reduces (p := .iterRep) (by simp only [reduce, s1]; rfl) ⟨?_, ?_, ?_⟩
      rotate_left
      · rw [convert_val hv hf, did_bind]
        dsimp only
        rw [held_some (v := .count lo hi) (by simp [Heap.new, Function.update_of_ne (show w1.heap.fresh ≠ p by omega)]), did_bind]
        dsimp only
        rw [hr]
        simp only [run]
        rw [did_bind, put_some (u := .val (.fsm f)) (by simp [Heap.new]), did_bind,
          delete_some (u := .val (.fsm f)) (by simp [Heap.new, Function.update_of_ne (show p ≠ w1.heap.fresh + 1 by omega)]), did_bind,
          delete_some (u := .count lo hi) (by simp [Heap.new, Function.update_of_ne (show w1.heap.fresh ≠ p by omega)]), did_bind]
        rfl
      · refine ⟨w1.heap.fresh + 1, rfl, l1, r1, by omega, by simp [Heap.new], fun b hb => ?_, ?_⟩
        · simp [Heap.new, Function.update_of_ne (show b ≠ p by omega), Function.update_of_ne (show b ≠ w1.heap.fresh by omega), Function.update_of_ne (show b ≠ w1.heap.fresh + 1 by omega),
            k1 b hb]
        · simp [Heap.new, Function.update_of_ne (show w1.heap.fresh + 1 ≠ p by omega)]

theorem term_gets : ∀ (t : Term) (w : World), w.look = none → Gets e w t.spell (evalTerm e t) fun f => Pushed w .term (.val f)
  | .letters cs neg, w, hl => by
    rw [evalTerm, Term.spell]
    exact (Gets.token hl rfl).rename (p := .termLetters) fun w a l hs => by simp [reduce, hs]
  | .dot, w, hl => by
    rw [evalTerm, Term.spell]
    exact (Gets.token hl rfl).rename (p := .termDot) fun w a l hs => by simp [reduce, hs]
  | .bol, w, hl => by
    rw [evalTerm, Term.spell]
    exact (Gets.token hl rfl).rename (p := .termBol) fun w a l hs => by simp [reduce, hs]
  | .eol, w, hl => by
    rw [evalTerm, Term.spell]
    exact (Gets.token hl rfl).rename (p := .termEol) fun w a l hs => by simp [reduce, hs]
  | .group a, w, hl => by
    rw [evalTerm, Term.spell]
    refine Gets.events (evs := [.read .opn, .shift]) (us := a.spell ++ [.cls]) (shift_none hl rfl) ?_
    refine (alt_gets a { w with stack := (.opn, none) :: w.stack } hl).bind ?_
    rintro x w2 ⟨q, s2, l2, r2, lo2, hi2, k2, v2⟩
    dsimp only at s2 r2 lo2 k2
    refine Gets.events (evs := [.read .cls, .shift]) (us := []) (shift_none l2 rfl) ?_
    refine Gets.reduces (p := .termGroup) (by simp only [reduce, s2]; rfl) ?_
    rw [held_some v2, did_bind]
    dsimp only
    rw [delete_none, did_bind, delete_none, did_bind]
    exact ⟨_, rfl, q, rfl, l2, r2, lo2, hi2, k2, v2⟩

end

/-- Every tree. -/
theorem regexp_gets (t : Alt) : Gets e World.start t.spell (evalAlt e t) fun f w => w.stack = [(.regexp, none)] ∧ w.look = none ∧ w.ret = some f := by
  have := (alt_gets (e := e) t World.start rfl).bind (us := []) (f := fun f => .ok f) (R := fun f w => w.stack = [(.regexp, none)] ∧ w.look = none ∧ w.ret = some f) (by
    rintro f w ⟨a, s, l, -, -, -, -, v⟩
    refine Gets.reduces (p := .regexp) (by simp only [reduce, s, World.start]; rfl) ?_
    rw [convert_fsm v, did_bind]
    dsimp only
    rw [delete_some v, did_bind]
    exact ⟨_, rfl, rfl, l, rfl⟩)
  rw [List.append_nil] at this
  cases hr : evalAlt e t <;> rw [hr] at this <;> exact this

end Pire.Stack
