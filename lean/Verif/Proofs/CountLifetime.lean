import Verif.Spec.CountLifetime

/-!
# `NoGlueLimitCountingScanner` variables are values: the invariant
-/

namespace Pire
namespace CountLife
open Count Life

/-- The actions of a variable are where they should be. -/
inductive Held (heap mapped : Nat → Option (List Nat)) : Acts → Option (List Nat) × Bool → Prop
  | none (c : Bool) : Held heap mapped ⟨.none, .none, c⟩ (.none, c)
  | mapped (a : Nat) (l : List Nat) (c : Bool) (h : mapped a = some l) (hh : heap a = .none) : Held heap mapped ⟨.none, some a, c⟩ (some l, c)
  | owned (a : Nat) (l : List Nat) (c : Bool) (h : heap a = some l) (hl : l.head? = some l.length) : Held heap mapped ⟨some a, some a, c⟩ (some l, c)

/-- The invariant. -/
structure ArrInv (w : Arrays) (ρ : Nat → Option (Option (List Nat) × Bool)) : Prop where
  held : ∀ v o, w.vars v = some o → ∃ x, ρ v = some x ∧ Held w.heap w.mapped o x
  dom : ∀ v, w.vars v = none → ρ v = none
  single : ∀ v u o p a, w.vars v = some o → w.vars u = some p → o.buffer = some a → p.buffer = some a → v = u
  noleak : ∀ a, (w.heap a).isSome → ∃ v o, w.vars v = some o ∧ o.buffer = some a
  apart : ∀ a, (w.heap a).isSome → w.mapped a = none

variable {w : Arrays} {ρ : Nat → Option (Option (List Nat) × Bool)}

theorem Held.buffer {heap mapped : Nat → Option (List Nat)} {o : Acts} {x : Option (List Nat) × Bool} (h : Held heap mapped o x) {a : Nat} (hb : o.buffer = some a) :
    o.actions = some a ∧ ∃ l, heap a = some l ∧ l.head? = some l.length ∧ x = (some l, o.compat) := by
  cases h with
  | none => cases hb
  | mapped => cases hb
  | owned b l c h hl => cases hb; exact ⟨rfl, l, h, hl, rfl⟩

/-- Arrays that are still there. -/
theorem Held.keep {heap heap' mapped mapped' : Nat → Option (List Nat)} {o : Acts} {x : Option (List Nat) × Bool} (h : Held heap mapped o x)
    (h1 : ∀ a, o.buffer = some a → heap' a = heap a) (h2 : ∀ a, o.actions = some a → (mapped a).isSome → mapped' a = mapped a)
    (h3 : ∀ a, (mapped a).isSome → heap a = .none → heap' a = .none) : Held heap' mapped' o x := by
  cases h with
  | none c => exact .none c
  | mapped a l c h hh => exact .mapped a l c (by rw [h2 a rfl (by rw [h]; rfl), h]) (h3 a (by rw [h]; rfl) hh)
  | owned a l c h hl => exact .owned a l c (by rw [h1 a rfl, h]) hl

/-- A variable gets new fields (or begins, or ends): what it owned has been deleted, what it owns now is new. -/
theorem ArrInv.put (h : ArrInv w ρ) {v : Nat} {old : Option Nat} {new : Option (Nat × List Nat)} {heap' : Nat → Option (List Nat)} {z : Option Acts}
    {y : Option (Option (List Nat) × Bool)} (ho : old = (w.vars v).bind Acts.buffer) (hn : ∀ x, new = some x → w.Free x.1)
    (hh : ∀ b, heap' b = if new.map (·.1) = some b then new.map (·.2) else if old = some b then none else w.heap b)
    (hz : ∀ o, z = some o → o.buffer = new.map (·.1) ∧ ∃ x, y = some x ∧ Held heap' w.mapped o x) (hzn : z = none → new = none ∧ y = none) :
    ArrInv { w with heap := heap', vars := Function.update w.vars v z } (Function.update ρ v y) := by
  have old_some : ∀ b, old = some b → ∃ o, w.vars v = some o ∧ o.buffer = some b := fun b hb => by
    rw [hb] at ho
    exact Option.bind_eq_some_iff.1 ho.symm
  have new_free : ∀ b, new.map (·.1) = some b → w.Free b := fun b hb => by
    rw [Option.map_eq_some_iff] at hb
    obtain ⟨x, h1, rfl⟩ := hb
    exact hn x h1
  refine ⟨fun u o hu => ?_, fun u hu => ?_, fun u u' o p a hu hu' ha ha' => ?_, fun a ha => ?_, fun a ha => ?_⟩
  · change Function.update w.vars v z u = some o at hu
    by_cases e : u = v
    · subst e
      rw [Function.update_self] at hu
      obtain ⟨-, x, h1, h2⟩ := hz o hu
      exact ⟨x, by rw [Function.update_self, h1], h2⟩
    · rw [Function.update_of_ne e] at hu
      obtain ⟨x, h1, h2⟩ := h.held u o hu
      refine ⟨x, by rw [Function.update_of_ne e, h1], h2.keep (fun a ha => ?_) (fun _ _ _ => rfl) fun a hm ha => ?_⟩
      · obtain ⟨-, l, hl, -⟩ := h2.buffer ha
        show heap' a = w.heap a
        rw [hh, if_neg fun hb => ?_, if_neg fun hb => ?_]
        · obtain ⟨o', g1, g2⟩ := old_some a hb
          exact e (h.single u v o o' a hu g1 ha g2)
        · rw [(new_free a hb).1] at hl; cases hl
      · show heap' a = none
        rw [hh, if_neg fun hb => ?_]
        · split
          · rfl
          · exact ha
        · rw [(new_free a hb).2] at hm; cases hm
  · change Function.update w.vars v z u = none at hu
    by_cases e : u = v
    · subst e
      rw [Function.update_self] at hu ⊢
      exact (hzn hu).2
    · rw [Function.update_of_ne e] at hu ⊢
      exact h.dom u hu
  · change Function.update w.vars v z u = some o at hu
    change Function.update w.vars v z u' = some p at hu'
    have key : ∀ x q, x ≠ v → w.vars x = some q → q.buffer = some a → ∀ r, z = some r → r.buffer = some a → False := by
      intro x q hx hq hqa r hr hra
      rw [(hz r hr).1] at hra
      obtain ⟨_, -, h2⟩ := h.held x q hq
      obtain ⟨-, l, hl, -⟩ := h2.buffer hqa
      rw [(new_free a hra).1] at hl
      cases hl
    by_cases e : u = v
    · by_cases e' : u' = v
      · rw [e, e']
      · subst e
        rw [Function.update_self] at hu
        rw [Function.update_of_ne e'] at hu'
        exact (key u' p e' hu' ha' o hu ha).elim
    · by_cases e' : u' = v
      · subst e'
        rw [Function.update_self] at hu'
        rw [Function.update_of_ne e] at hu
        exact (key u o e hu ha p hu' ha').elim
      · rw [Function.update_of_ne e] at hu
        rw [Function.update_of_ne e'] at hu'
        exact h.single u u' o p a hu hu' ha ha'
  · change (heap' a).isSome = true at ha
    rw [hh] at ha
    show ∃ u o, Function.update w.vars v z u = some o ∧ o.buffer = some a
    by_cases e : new.map (·.1) = some a
    · cases hzz : z with
      | none =>
        rw [(hzn hzz).1] at e
        cases e
      | some o => exact ⟨v, o, by rw [Function.update_self], by rw [(hz o hzz).1, e]⟩
    · rw [if_neg e] at ha
      split at ha
      · cases ha
      · rename_i e2
        obtain ⟨u, o, g1, g2⟩ := h.noleak a ha
        refine ⟨u, o, ?_, g2⟩
        rw [Function.update_of_ne, g1]
        rintro rfl
        exact e2 (by rw [ho, g1]; exact g2)
  · change (heap' a).isSome = true at ha
    rw [hh] at ha
    show w.mapped a = none
    by_cases e : new.map (·.1) = some a
    · exact (new_free a e).2
    · rw [if_neg e] at ha
      split at ha
      · cases ha
      · exact h.apart a ha

/-- What a variable should be after `Arrays.step`, as a pair of actions and flag. -/
def rest (τ : Nat → Option NoLimit) : Nat → Option (Option (List Nat) × Bool) := fun v => (τ v).map fun x => (x.actions, x.compat)

theorem rest_update {τ : Nat → Option NoLimit} {v : Nat} {z : Option NoLimit} :
    rest (Function.update τ v z) = Function.update (rest τ) v (z.map fun x => (x.actions, x.compat)) := by
  funext u
  unfold rest
  by_cases e : u = v
  · subst e; rw [Function.update_self, Function.update_self]
  · rw [Function.update_of_ne e, Function.update_of_ne e]

/-- No old array, no new array. -/
theorem heap_same {heap : Nat → Option (List Nat)} (b : Nat) :
    heap b = if (none : Option (Nat × List Nat)).map (·.1) = some b then (none : Option (Nat × List Nat)).map (·.2) else if (none : Option Nat) = some b then none else heap b := by
  rw [if_neg (by intro h; cases h), if_neg (by intro h; cases h)]

theorem New.free {acts : Option (Nat × List Nat)} (h : w.New acts) : ∀ x, acts = some x → w.Free x.1 := by
  rintro x rfl
  exact h.1

theorem alloc_at {heap : Nat → Option (List Nat)} (acts : Option (Nat × List Nat)) (b : Nat) :
    alloc heap acts b = if acts.map (·.1) = some b then acts.map (·.2) else heap b := by
  cases acts with
  | none => rw [if_neg (by intro h; cases h)]; rfl
  | some x =>
    show Function.update heap x.1 (some x.2) b = if some x.1 = some b then some x.2 else heap b
    by_cases e : b = x.1
    · subst e; rw [Function.update_self, if_pos rfl]
    · rw [Function.update_of_ne e, if_neg fun h => e (Option.some.inj h).symm]

theorem New.held {mapped : Nat → Option (List Nat)} {acts : Option (Nat × List Nat)} (h : w.New acts) {heap' : Nat → Option (List Nat)} (c : Bool)
    (hh : ∀ x, acts = some x → heap' x.1 = some x.2) : Held heap' mapped ⟨acts.map (·.1), acts.map (·.1), c⟩ (acts.map (·.2), c) := by
  cases acts with
  | none => exact .none c
  | some x => exact .owned x.1 x.2 c (hh x rfl) h.2

/-- Deleting what a variable owns. -/
theorem ArrInv.free (h : ArrInv w ρ) {v : Nat} {o : Acts} (hv : w.vars v = some o) {acts : Option (Nat × List Nat)} (hn : w.New acts) :
    ∃ h', free (alloc w.heap acts) o.buffer = some h' ∧ ∀ b, h' b = if acts.map (·.1) = some b then acts.map (·.2) else if o.buffer = some b then none else w.heap b := by
  cases hb : o.buffer with
  | none => exact ⟨_, rfl, fun b => by rw [alloc_at]; split; rfl; rw [if_neg (by intro h; cases h)]⟩
  | some a =>
    obtain ⟨x, -, h2⟩ := h.held v o hv
    obtain ⟨-, l, hl, -⟩ := h2.buffer hb
    have hne : acts.map (·.1) ≠ some a := fun e => by
      rw [Option.map_eq_some_iff] at e
      obtain ⟨y, h1, rfl⟩ := e
      rw [(New.free hn y h1).1] at hl
      cases hl
    refine ⟨_, if_pos (by rw [alloc_at, if_neg hne, hl]; rfl), fun b => ?_⟩
    by_cases e : b = a
    · subst e; rw [Function.update_self, if_neg hne, if_pos rfl]
    · rw [Function.update_of_ne e, alloc_at, if_neg (c := some a = some b) fun h => e (Option.some.inj h).symm]

/-- Every legal operation is defined and keeps the invariant. That `v` is new is known from the tables. -/
theorem ArrInv.step {τ : Nat → Option NoLimit} {nul : Loaded} (h : ArrInv w (rest τ)) {op : Op} (hl : w.Legal op)
    (hnew : ∀ v, (op = .default v ∨ (∃ x n val acts, op = .make v x n val acts) ∨ (∃ x val acts c, op = .attach v x val acts c) ∨ (∃ u a b, op = .copy v u a b)) → w.vars v = none)
    (hold : ∀ v, ((∃ u a b, op = .copy u v a b) ∨ (∃ j, op = .destroy v j)) → (w.vars v).isSome) :
    ∃ w', w.step op = some w' ∧ ArrInv w' (rest (valueStep nul τ op)) := by
  cases op with
  | default v =>
    have hv := hnew v (.inl rfl)
    refine ⟨_, rfl, ?_⟩
    show ArrInv _ (rest (Function.update τ v _))
    rw [rest_update]
    exact h.put (old := none) (new := none) (by rw [hv]; rfl) (fun x hx => by cases hx) heap_same
      (fun o ho => by cases ho; exact ⟨rfl, _, rfl, .none false⟩) fun hz => by cases hz
  | make v x n val acts =>
    have hv := hnew v (.inr (.inl ⟨x, n, val, acts, rfl⟩))
    refine ⟨_, rfl, ?_⟩
    show ArrInv _ (rest (Function.update τ v _))
    rw [rest_update]
    refine h.put (old := none) (new := acts) (by rw [hv]; rfl) (New.free hl) (fun b => ?_)
      (fun o ho => by
        cases ho
        refine ⟨rfl, _, rfl, New.held (w := w) hl false fun x hx => ?_⟩
        rw [alloc_at, hx]; exact if_pos rfl) fun hz => by cases hz
    rw [alloc_at]
    split
    · rfl
    · rw [if_neg (by intro h; cases h)]
  | attach v x val acts c =>
    have hv := hnew v (.inr (.inr (.inl ⟨x, val, acts, c, rfl⟩)))
    refine ⟨_, rfl, ?_⟩
    show ArrInv _ (rest (Function.update τ v _))
    rw [rest_update]
    refine h.put (old := none) (new := none) (by rw [hv]; rfl) (fun x hx => by cases hx) heap_same
      (fun o ho => ?_) fun hz => by cases hz
    cases ho
    refine ⟨rfl, _, rfl, ?_⟩
    cases acts with
    | none => exact .none c
    | some y =>
      have hm : w.mapped y.1 = some y.2 := hl y rfl
      refine .mapped y.1 y.2 c hm ?_
      by_contra hne
      rw [h.apart y.1 (Option.isSome_iff_ne_none.2 hne)] at hm
      cases hm
  | copy v u a b =>
    have hv := hnew v (.inr (.inr (.inr ⟨u, a, b, rfl⟩)))
    obtain ⟨o, hu⟩ := Option.isSome_iff_exists.1 (hold u (.inl ⟨v, a, b, rfl⟩))
    obtain ⟨x, hx, hheld⟩ := h.held u o hu
    show ∃ w', (w.vars u).bind _ = some w' ∧ ArrInv w' (rest (Function.update τ v _))
    rw [rest_update, hu, Option.bind_some]
    cases hb : o.buffer with
    | none =>
      refine ⟨_, rfl, h.put (old := none) (new := none) (by rw [hv]; rfl) (fun x hx => by cases hx) heap_same (fun p hp => ?_) fun hz => by cases hz⟩
      cases hp
      exact ⟨hb, x, hx, hheld⟩
    | some c =>
      obtain ⟨h1, l, h2, h3, rfl⟩ := hheld.buffer hb
      have hfree := hl o hu (by rw [hb]; rfl)
      have hlook : w.look c = some l := by unfold Arrays.look; rw [h2]; rfl
      dsimp only
      rw [h1, Option.bind_some, hlook, Option.bind_some, h3, Option.bind_some, Option.bind_some, if_pos (Nat.le_refl _), List.take_length]
      refine ⟨_, rfl, h.put (old := none) (new := some (b, l)) (by rw [hv]; rfl) (fun x hx => by cases hx; exact hfree) (fun d => ?_) (fun p hp => ?_) fun hz => by cases hz⟩
      · by_cases e : d = b
        · subst e; rw [Function.update_self]; exact (if_pos rfl).symm
        · rw [Function.update_of_ne e]
          exact ((if_neg fun h => e (Option.some.inj h).symm).trans (if_neg (by intro h; cases h))).symm
      · cases hp
        exact ⟨rfl, _, hx, .owned b l o.compat (by rw [Function.update_self]) h3⟩
  | swap v u =>
    refine ⟨_, rfl, ?_⟩
    show ArrInv _ (rest (Function.update (Function.update τ v (τ u)) u (τ v)))
    rw [rest_update, rest_update]
    have at_ : ∀ x, Function.update (Function.update w.vars v (w.vars u)) u (w.vars v) x = w.vars (Equiv.swap v u x) := fun x => by
      by_cases e : x = u
      · subst e; rw [Function.update_self, Equiv.swap_apply_right]
      · rw [Function.update_of_ne e]
        by_cases e' : x = v
        · subst e'; rw [Function.update_self, Equiv.swap_apply_left]
        · rw [Function.update_of_ne e', Equiv.swap_apply_of_ne_of_ne e' e]
    have at' : ∀ x, Function.update (Function.update (rest τ) v ((τ u).map fun x => (x.actions, x.compat))) u ((τ v).map fun x => (x.actions, x.compat)) x =
        rest τ (Equiv.swap v u x) := fun x => by
      by_cases e : x = u
      · subst e; rw [Function.update_self, Equiv.swap_apply_right]; rfl
      · rw [Function.update_of_ne e]
        by_cases e' : x = v
        · subst e'; rw [Function.update_self, Equiv.swap_apply_left]; rfl
        · rw [Function.update_of_ne e', Equiv.swap_apply_of_ne_of_ne e' e]
    refine ⟨fun x o hx => ?_, fun x hx => ?_, fun x x' o p a hx hx' ha ha' => ?_, fun a ha => ?_, h.apart⟩
    · change Function.update (Function.update w.vars v (w.vars u)) u (w.vars v) x = some o at hx
      rw [at_] at hx
      rw [at']
      exact h.held _ o hx
    · change Function.update (Function.update w.vars v (w.vars u)) u (w.vars v) x = none at hx
      rw [at_] at hx
      rw [at']
      exact h.dom _ hx
    · change Function.update (Function.update w.vars v (w.vars u)) u (w.vars v) x = some o at hx
      change Function.update (Function.update w.vars v (w.vars u)) u (w.vars v) x' = some p at hx'
      rw [at_] at hx hx'
      exact (Equiv.swap v u).injective (h.single _ _ o p a hx hx' ha ha')
    · obtain ⟨x, o, g1, g2⟩ := h.noleak a ha
      refine ⟨Equiv.swap v u x, o, ?_, g2⟩
      show Function.update (Function.update w.vars v (w.vars u)) u (w.vars v) _ = some o
      rw [at_, Equiv.swap_apply_self, g1]
  | destroy v junk =>
    obtain ⟨o, hv⟩ := Option.isSome_iff_exists.1 (hold v (.inr ⟨junk, rfl⟩))
    obtain ⟨h', g1, g2⟩ := h.free hv (acts := none) trivial
    show ∃ w', (w.vars v).bind _ = some w' ∧ ArrInv w' (rest (Function.update τ v _))
    rw [rest_update, hv, Option.bind_some]
    have g1 : CountLife.free w.heap o.buffer = some h' := g1
    rw [g1]
    exact ⟨_, rfl, h.put (old := o.buffer) (new := none) (by rw [hv]; rfl) (fun x hx => by cases hx) g2 (fun o ho => by cases ho) fun _ => ⟨rfl, rfl⟩⟩
  | load t v x n val junk acts =>
    obtain ⟨hv, hn⟩ := hl
    obtain ⟨o, hv⟩ := Option.isSome_iff_exists.1 hv
    obtain ⟨h', g1, g2⟩ := h.free hv hn
    obtain ⟨y, hy, hheld⟩ := h.held v o hv
    obtain ⟨z, hz, rfl⟩ := Option.map_eq_some_iff.1 hy
    show ∃ w', (w.vars v).bind _ = some w' ∧ ArrInv w' (rest (Function.update τ v _))
    rw [rest_update, hv, Option.bind_some, g1, hz]
    refine ⟨_, rfl, h.put (old := o.buffer) (new := acts) (by rw [hv]; rfl) (New.free hn) g2 (fun p hp => ?_) fun hz => by cases hz⟩
    cases hp
    have hc : o.compat = z.compat := by generalize hq : (z.actions, z.compat) = q at hheld; cases hheld <;> exact (congrArg Prod.snd hq).symm
    refine ⟨rfl, _, rfl, ?_⟩
    dsimp only
    rw [hc]
    exact New.held hn _ fun x hx => by rw [g2, hx]; exact if_pos rfl
  | loadAdvanced t v x n val junk =>
    obtain ⟨o, hv⟩ := Option.isSome_iff_exists.1 hl
    obtain ⟨y, hy, hheld⟩ := h.held v o hv
    obtain ⟨z, hz, rfl⟩ := Option.map_eq_some_iff.1 hy
    show ∃ w', (w.vars v).map _ = some w' ∧ ArrInv w' (rest (Function.update τ v _))
    rw [rest_update, hv, Option.map_some, hz]
    refine ⟨_, rfl, fun u p hu => ?_, fun u hu => ?_, fun u u' p q a hu hu' ha ha' => ?_, fun a ha => ?_, h.apart⟩
    · change Function.update w.vars v _ u = some p at hu
      by_cases e : u = v
      · subst e
        rw [Function.update_self] at hu ⊢
        cases hu
        refine ⟨_, rfl, ?_⟩
        generalize hq : (z.actions, z.compat) = q at hheld
        cases hheld with
        | none c =>
          have : z.actions = none := congrArg Prod.fst hq
          dsimp only; rw [this]
          exact .none true
        | mapped a l c h1 h2 =>
          have : z.actions = some l := congrArg Prod.fst hq
          dsimp only; rw [this]
          exact .mapped a l true h1 h2
        | owned a l c h1 h2 =>
          have : z.actions = some l := congrArg Prod.fst hq
          dsimp only; rw [this]
          exact .owned a l true h1 h2
      · rw [Function.update_of_ne e] at hu ⊢
        exact h.held u p hu
    · change Function.update w.vars v _ u = none at hu
      by_cases e : u = v
      · subst e; rw [Function.update_self] at hu; cases hu
      · rw [Function.update_of_ne e] at hu ⊢
        exact h.dom u hu
    · have back : ∀ u p, Function.update w.vars v (some { o with compat := true }) u = some p → ∃ p', w.vars u = some p' ∧ p'.buffer = p.buffer := fun u p hu => by
        by_cases e : u = v
        · subst e
          rw [Function.update_self] at hu
          cases hu
          exact ⟨o, hv, rfl⟩
        · rw [Function.update_of_ne e] at hu
          exact ⟨p, hu, rfl⟩
      obtain ⟨p', b1, b2⟩ := back u p hu
      obtain ⟨q', c1, c2⟩ := back u' q hu'
      exact h.single u u' p' q' a b1 c1 (b2.trans ha) (c2.trans ha')
    · obtain ⟨u, p, g1, g2⟩ := h.noleak a ha
      show ∃ u p, Function.update w.vars v (some { o with compat := true }) u = some p ∧ _
      by_cases e : u = v
      · subst e
        rw [hv] at g1
        cases g1
        exact ⟨u, _, Function.update_self .., g2⟩
      · exact ⟨u, p, by rw [Function.update_of_ne e, g1], g2⟩
  | map a n content => exact ⟨_, rfl, h⟩
  | unmap a n junk => exact ⟨_, rfl, h⟩
  | mapActs a l =>
    obtain ⟨f1, f2⟩ := hl
    refine ⟨_, rfl, fun u o hu => ?_, h.dom, h.single, h.noleak, fun b hb => ?_⟩
    · obtain ⟨x, g1, g2⟩ := h.held u o hu
      refine ⟨x, g1, g2.keep (fun _ _ => rfl) (fun b _ hb => ?_) fun _ _ h => h⟩
      show Function.update w.mapped a (some l) b = _
      rw [Function.update_of_ne]
      rintro rfl
      rw [f2] at hb
      cases hb
    · show Function.update w.mapped a (some l) b = none
      rw [Function.update_of_ne]
      · exact h.apart b hb
      · rintro rfl
        rw [show w.heap b = none from f1] at hb
        cases hb
  | unmapActs a =>
    refine ⟨_, rfl, fun u o hu => ?_, h.dom, h.single, h.noleak, fun b hb => ?_⟩
    · obtain ⟨x, g1, g2⟩ := h.held u o hu
      refine ⟨x, g1, g2.keep (fun _ _ => rfl) (fun b hb _ => ?_) fun _ _ h => h⟩
      show Function.update w.mapped a none b = _
      rw [Function.update_of_ne]
      rintro rfl
      exact hl u o hu hb
    · show Function.update w.mapped a none b = none
      by_cases e : b = a
      · subst e; rw [Function.update_self]
      · rw [Function.update_of_ne e]; exact h.apart b hb

/-- The invariant of tables and actions. -/
structure Inv (nul : Loaded) (w : World) (τ : Nat → Option NoLimit) : Prop where
  tables : Life.Inv (loadedKind nul) LoadedBuilt LoadedMeans nul w.tables fun v => (τ v).map NoLimit.base
  arrays : ArrInv w.arrays (rest τ)

theorem base_update {τ : Nat → Option NoLimit} {v : Nat} {z : Option NoLimit} :
    (fun u => (Function.update τ v z u).map NoLimit.base) = Function.update (fun u => (τ u).map NoLimit.base) v (z.map NoLimit.base) := by
  funext u
  by_cases e : u = v
  · subst e; rw [Function.update_self, Function.update_self]
  · rw [Function.update_of_ne e, Function.update_of_ne e]

variable {nul : Loaded} {w : World} {τ : Nat → Option NoLimit}

theorem Inv.dom (h : Inv nul w τ) (v : Nat) : (w.tables.vars v = none ↔ τ v = none) ∧ (w.arrays.vars v = none ↔ τ v = none) := by
  refine ⟨(h.tables.dom v).trans Option.map_eq_none_iff, fun hv => Option.map_eq_none_iff.1 (h.arrays.dom v hv), fun hv => ?_⟩
  by_contra hn
  obtain ⟨o, ho⟩ := Option.ne_none_iff_exists'.1 hn
  obtain ⟨x, h1, -⟩ := h.arrays.held v o ho
  unfold rest at h1
  rw [hv] at h1
  cases h1

/-- `LoadedScanner::Load` within an operation. -/
theorem load_values {σ : Nat → Option Loaded} {t v n : Nat} {x val : Loaded} {junk : Mem} (ht : σ t = none) (htv : v ≠ t) :
    (Life.loadInto t v x n val junk).foldl (Life.valueStep nul) σ = Function.update σ v (some val) := by
  funext i
  show Function.update (Function.update (Function.update (Function.update σ t (some val)) t (Function.update σ t (some val) v)) v
    (Function.update σ t (some val) t)) t none i = _
  by_cases hx : i = t
  · subst hx
    rw [Function.update_self, Function.update_of_ne htv.symm, ht]
  · rw [Function.update_of_ne hx]
    by_cases hxv : i = v
    · subst hxv
      rw [Function.update_self, Function.update_self, Function.update_self]
    · rw [Function.update_of_ne hxv, Function.update_of_ne hx, Function.update_of_ne hx, Function.update_of_ne hxv]

/-- The tables have the right values. -/
theorem tables_values (h : Inv nul w τ) {op : Op} (hl : Legal nul w op) :
    op.tables.foldl (Life.valueStep nul) (fun v => (τ v).map NoLimit.base) = fun v => (valueStep nul τ op v).map NoLimit.base := by
  have hload : ∀ {t v n : Nat} {x val : Loaded} {junk : Mem} {f : NoLimit → NoLimit}, (∀ z, (f z).base = val) →
      Life.LegalRun (loadedKind nul) LoadedBuilt LoadedMeans w.tables (Life.loadInto t v x n val junk) → (w.arrays.vars v).isSome →
      (Life.loadInto t v x n val junk).foldl (Life.valueStep nul) (fun v => (τ v).map NoLimit.base) =
        fun u => (Function.update τ v ((τ v).map f) u).map NoLimit.base := by
    intro t v n x val junk f hf h1 h2
    have ht : τ t = none := ((h.dom t).1).1 h1.1.1
    have hv : τ v ≠ none := fun e => by
      rw [((h.dom v).2).2 e] at h2
      cases h2
    obtain ⟨z, hz⟩ := Option.ne_none_iff_exists'.1 hv
    rw [load_values (by rw [ht]; rfl) (by rintro rfl; exact hv ht), base_update, hz]
    rw [Option.map_some, Option.map_some, hf]
  cases op with
  | default v => exact (base_update (z := some ⟨nul, none, false⟩)).symm
  | make v x n val acts => exact (base_update (z := some ⟨val, acts.map (·.2), false⟩)).symm
  | attach v x val acts c => exact (base_update (z := some ⟨val, acts.map (·.2), c⟩)).symm
  | copy v u a b => exact (base_update (z := τ u)).symm
  | swap v u =>
    show Function.update (Function.update _ v _) u _ = fun x => (Function.update (Function.update τ v (τ u)) u (τ v) x).map NoLimit.base
    rw [base_update, base_update]
  | destroy v junk => exact (base_update (z := none)).symm
  | load t v x n val junk acts => exact hload (f := fun x => { x with base := val, actions := acts.map (·.2) }) (fun _ => rfl) hl.1 hl.2.1
  | loadAdvanced t v x n val junk => exact hload (f := fun x => { x with base := val, compat := true }) (fun _ => rfl) hl.1 hl.2
  | map a n content => rfl
  | unmap a n junk => rfl
  | mapActs a l => rfl
  | unmapActs a => rfl

/-- Every legal operation is defined and keeps the invariant. -/
theorem Inv.step (h : Inv nul w τ) {op : Op} (hl : Legal nul w op) : ∃ w', CountLife.step nul w op = some w' ∧ Inv nul w' (valueStep nul τ op) := by
  obtain ⟨t, h1, h2⟩ := h.tables.run (loaded_laws nul) hl.1
  rw [tables_values h hl] at h2
  have some_of : ∀ v, (w.tables.vars v).isSome → (w.arrays.vars v).isSome := fun v hv => by
    rw [Option.isSome_iff_ne_none] at hv ⊢
    exact fun e => hv (((h.dom v).1).2 (((h.dom v).2).1 e))
  obtain ⟨a, h3, h4⟩ := h.arrays.step (nul := nul) hl.2
    (fun v hv => by
      refine ((h.dom v).2).2 (((h.dom v).1).1 ?_)
      rcases hv with rfl | ⟨x, n, val, acts, rfl⟩ | ⟨x, val, acts, c, rfl⟩ | ⟨u, a, b, rfl⟩
      · exact hl.1.1
      · exact hl.1.1.1
      · exact hl.1.1.1
      · exact hl.1.1.1)
    (fun v hv => by
      refine some_of v ?_
      rcases hv with ⟨u, a, b, rfl⟩ | ⟨j, rfl⟩
      · obtain ⟨-, y, hy, -⟩ := hl.1.1
        rw [hy]; rfl
      · exact hl.1.1)
  refine ⟨⟨t, a⟩, ?_, h2, h4⟩
  unfold CountLife.step
  rw [h1, Option.bind_some, h3, Option.map_some]

/-- Every legal program is defined and keeps the invariant. -/
theorem Inv.run (h : Inv nul w τ) {ops : List Op} (hl : LegalRun nul w ops) : ∃ w', CountLife.run nul w ops = some w' ∧ Inv nul w' (ops.foldl (valueStep nul) τ) := by
  induction ops generalizing w τ with
  | nil => exact ⟨w, rfl, h⟩
  | cons op ops ih =>
    obtain ⟨w1, h1, h2⟩ := h.step hl.1
    obtain ⟨w2, h3, h4⟩ := ih h2 (hl.2 w1 h1)
    refine ⟨w2, ?_, h4⟩
    unfold CountLife.run at h3 ⊢
    rw [List.foldlM_cons, h1]
    exact h3

theorem Inv.start (hn : LoadedMeans nul nul) (h : Start nul w) : Inv nul w fun _ => none where
  tables := Life.Inv.start (loaded_laws nul) h.tables hn
  arrays :=
    { held := fun v o hv => by rw [h.vars v] at hv; cases hv
      dom := fun _ _ => rfl
      single := fun v _ _ _ _ hv => by rw [h.vars v] at hv; cases hv
      noleak := fun a ha => by rw [h.heap a] at ha; cases ha
      apart := fun a ha => by rw [h.heap a] at ha; cases ha }

theorem Held.look {w : Arrays} {o : Acts} {x : Option (List Nat) × Bool} (h : Held w.heap w.mapped o x) :
    o.compat = x.2 ∧ match o.actions with
      | Option.none => x.1 = Option.none
      | some a => ∃ l, w.look a = some l ∧ x.1 = some l := by
  cases h with
  | none c => exact ⟨rfl, rfl⟩
  | mapped a l c h hh => exact ⟨rfl, l, by unfold Arrays.look; rw [hh, h]; rfl, rfl⟩
  | owned a l c h hl => exact ⟨rfl, l, by unfold Arrays.look; rw [h]; rfl, rfl⟩

theorem Inv.view (h : Inv nul w τ) (v : Nat) : (τ v = none ↔ w.view nul v = none) ∧ ∀ x, τ v = some x → ∃ s, w.view nul v = some s ∧ Alike x s := by
  cases hv : τ v with
  | none =>
    refine ⟨⟨fun _ => ?_, fun _ => rfl⟩, fun x hx => by cases hx⟩
    unfold World.view
    rw [((h.dom v).2).2 hv]
    rfl
  | some x =>
    obtain ⟨o, ho⟩ := Option.ne_none_iff_exists'.1 (show w.arrays.vars v ≠ none from fun e => by rw [((h.dom v).2).1 e] at hv; cases hv)
    obtain ⟨s, h1, -, h2, h3⟩ := (h.tables.view (v := v)).2 x.base (by rw [hv]; rfl)
    obtain ⟨y, g1, g2⟩ := h.arrays.held v o ho
    unfold rest at g1
    rw [hv] at g1
    cases g1
    obtain ⟨k1, k2⟩ := g2.look
    have key : ∃ s', w.view nul v = some s' ∧ Alike x s' := by
      unfold World.view
      rw [ho, Option.bind_some, h1, Option.bind_some]
      cases hao : o.actions with
      | none =>
        rw [hao] at k2
        exact ⟨_, rfl, h2, h3, k2.symm, k1⟩
      | some a =>
        rw [hao] at k2
        obtain ⟨l, k3, k4⟩ := k2
        dsimp only
        rw [k3]
        exact ⟨_, rfl, h2, h3, k4.symm, k1⟩
    obtain ⟨s', q1, q2⟩ := key
    refine ⟨⟨fun e => (by cases e), fun e => (by rw [q1] at e; cases e)⟩, fun x' hx => ?_⟩
    cases hx
    exact ⟨s', q1, q2⟩

/-! ### Programs after programs -/

theorem run_append (ops ops' : List Op) : CountLife.run nul w (ops ++ ops') = (CountLife.run nul w ops).bind fun w' => CountLife.run nul w' ops' := by
  unfold CountLife.run
  rw [List.foldlM_append]
  rfl

theorem legalRun_append {ops ops' : List Op} : LegalRun nul w (ops ++ ops') ↔
    LegalRun nul w ops ∧ ∀ w', CountLife.run nul w ops = some w' → LegalRun nul w' ops' := by
  induction ops generalizing w with
  | nil =>
    refine ⟨fun h => ⟨trivial, fun w' hw => ?_⟩, fun h => h.2 w rfl⟩
    cases hw
    exact h
  | cons op ops ih =>
    have e : ∀ w'', CountLife.run nul w (op :: ops) = some w'' ↔ ∃ w', CountLife.step nul w op = some w' ∧ CountLife.run nul w' ops = some w'' := by
      intro w''
      unfold CountLife.run
      rw [List.foldlM_cons]
      exact Option.bind_eq_some_iff
    show (_ ∧ ∀ w', _ → LegalRun _ w' (ops ++ ops')) ↔ (_ ∧ ∀ w', _ → LegalRun _ w' ops) ∧ _
    constructor
    · rintro ⟨h1, h2⟩
      refine ⟨⟨h1, fun w' hw => (ih.1 (h2 w' hw)).1⟩, fun w'' hw => ?_⟩
      obtain ⟨w', g1, g2⟩ := (e w'').1 hw
      exact (ih.1 (h2 w' g1)).2 w'' g2
    · rintro ⟨⟨h1, h2⟩, h3⟩
      exact ⟨h1, fun w' hw => ih.2 ⟨h2 w' hw, fun w'' hw' => h3 w'' ((e w'').2 ⟨w', hw, hw'⟩)⟩⟩

end CountLife
end Pire
