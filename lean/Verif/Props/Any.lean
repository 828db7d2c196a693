import Verif.Model.Any
import Mathlib.Data.Finset.Card
import Mathlib.Tactic.Common

/-!
# C75: `Any` has values, not pointers
-/

namespace Pire.Props

open Pire.Spec Pire.AnyBox

variable {Ty V : Type} [DecidableEq Ty]

/-- The memory holds the contents: every variable has its own holder, and there are no others. -/
structure Owns (w : World Ty V) (c : Contents Ty V) : Prop where
  held : ∀ v, c v = (w.vars v).map fun h => h.bind w.cells
  live : ∀ v a, w.vars v = some (some a) → w.cells a ≠ none
  inj : ∀ v u a, w.vars v = some (some a) → w.vars u = some (some a) → v = u
  owned : ∀ a, w.cells a ≠ none → ∃ v, w.vars v = some (some a)
  fresh : ∀ a, w.fresh ≤ a → w.cells a = none

theorem owns_start : Owns (World.start : World Ty V) (fun _ => none) :=
  ⟨fun _ => rfl, fun v a h => (by cases h), fun v u a h => (by cases h), fun a h => absurd rfl h, fun _ _ => rfl⟩

/-- A variable that has no holder becomes empty or disappears. -/
theorem Owns.blank {w : World Ty V} {c : Contents Ty V} (h : Owns w c) {v : Nat} (hv : ∀ a, w.vars v ≠ some (some a)) {y : Option (Option Nat)} (hy : ∀ a, y ≠ some (some a)) :
    Owns { w with vars := Function.update w.vars v y } (Function.update c v (y.map fun _ => none)) := by
  obtain ⟨h1, h2, h3, h4, h5⟩ := h
  refine ⟨fun u => ?_, fun u a hu => ?_, fun u u' a hu hu' => ?_, fun a ha => ?_, h5⟩
  · by_cases e : u = v
    · subst e
      rcases y with _ | _ | a
      · simp
      · simp
      · exact absurd rfl (hy a)
    · simp [e, h1]
  · by_cases e : u = v
    · subst e; exact absurd (by simpa using hu) (hy a)
    · exact h2 u a (by simpa [e] using hu)
  · by_cases e : u = v
    · subst e; exact absurd (by simpa using hu) (hy a)
    · by_cases e' : u' = v
      · subst e'; exact absurd (by simpa using hu') (hy a)
      · exact h3 u u' a (by simpa [e] using hu) (by simpa [e'] using hu')
  · obtain ⟨u, hu⟩ := h4 a ha
    have e : u ≠ v := by rintro rfl; exact hv a hu
    exact ⟨u, by simpa [e] using hu⟩

/-- A variable that has no holder gets a new one. -/
theorem Owns.fill {w : World Ty V} {c : Contents Ty V} (h : Owns w c) {v : Nat} (hv : ∀ a, w.vars v ≠ some (some a)) (x : Ty × V) :
    Owns { w.new x with vars := Function.update w.vars v (some (some w.fresh)) } (Function.update c v (some (some x))) := by
  obtain ⟨h1, h2, h3, h4, h5⟩ := h
  have hne : ∀ u a, w.vars u = some (some a) → a ≠ w.fresh := by
    rintro u a hu rfl
    exact h2 u _ hu (h5 _ (Nat.le_refl _))
  refine ⟨fun u => ?_, fun u a hu => ?_, fun u u' a hu hu' => ?_, fun a ha => ?_, fun a ha => ?_⟩
  · by_cases e : u = v
    · subst e; simp [World.new]
    · rcases hu : w.vars u with _ | _ | a
      · simp [e, h1, hu]
      · simp [e, h1, hu]
      · simp [e, h1, hu, World.new, hne u a hu]
  · by_cases e : u = v
    · subst e
      have : w.fresh = a := by simpa using hu
      subst this
      simp [World.new]
    · have hu : w.vars u = some (some a) := by simpa [e] using hu
      simpa [World.new, hne u a hu] using h2 u a hu
  · by_cases e : u = v <;> by_cases e' : u' = v
    · rw [e, e']
    · subst e
      have e1 : w.fresh = a := by simpa using hu
      exact absurd e1.symm (hne u' a (by simpa [e'] using hu'))
    · subst e'
      have e1 : w.fresh = a := by simpa using hu'
      exact absurd e1.symm (hne u a (by simpa [e] using hu))
    · exact h3 u u' a (by simpa [e] using hu) (by simpa [e'] using hu')
  · by_cases e : a = w.fresh
    · subst e; exact ⟨v, by simp⟩
    · obtain ⟨u, hu⟩ := h4 a (by simpa [World.new, e] using ha)
      have e : u ≠ v := by rintro rfl; exact hv a hu
      exact ⟨u, by simpa [e] using hu⟩
  · have ha : w.fresh + 1 ≤ a := ha
    have e : a ≠ w.fresh := by omega
    simpa [World.new, e] using h5 a (by omega)

/-- A variable loses its holder. -/
theorem Owns.drop {w : World Ty V} {c : Contents Ty V} (h : Owns w c) {v a : Nat} (hv : w.vars v = some (some a)) {y : Option (Option Nat)} (hy : ∀ a, y ≠ some (some a)) :
    Owns { w with cells := Function.update w.cells a none, vars := Function.update w.vars v y } (Function.update c v (y.map fun _ => none)) := by
  obtain ⟨h1, h2, h3, h4, h5⟩ := h
  have hne : ∀ u b, u ≠ v → w.vars u = some (some b) → b ≠ a := by
    rintro u b e hu rfl
    exact e (h3 u v b hu hv)
  refine ⟨fun u => ?_, fun u b hu => ?_, fun u u' b hu hu' => ?_, fun b hb => ?_, fun b hb => ?_⟩
  · by_cases e : u = v
    · subst e
      rcases y with _ | _ | b
      · simp
      · simp
      · exact absurd rfl (hy b)
    · rcases hu : w.vars u with _ | _ | b
      · simp [e, h1, hu]
      · simp [e, h1, hu]
      · simp [e, h1, hu, hne u b e hu]
  · by_cases e : u = v
    · subst e; exact absurd (by simpa using hu) (hy b)
    · have hu : w.vars u = some (some b) := by simpa [e] using hu
      simpa [hne u b e hu] using h2 u b hu
  · by_cases e : u = v
    · subst e; exact absurd (by simpa using hu) (hy b)
    · by_cases e' : u' = v
      · subst e'; exact absurd (by simpa using hu') (hy b)
      · exact h3 u u' b (by simpa [e] using hu) (by simpa [e'] using hu')
  · have e : b ≠ a := by rintro rfl; simp at hb
    obtain ⟨u, hu⟩ := h4 b (by simpa [e] using hb)
    have e' : u ≠ v := by
      rintro rfl
      rw [hv] at hu
      exact e (by simpa using hu.symm)
    exact ⟨u, by simpa [e'] using hu⟩
  · by_cases e : b = a
    · subst e; simp
    · simpa [e] using h5 b hb

/-- The result of an operation on the memory is what it should be. -/
def Agrees (d : Did Ty V) (r : Bool × Contents Ty V) : Prop :=
  match d with
  | .ok w => r.1 = true ∧ Owns w r.2
  | .throws w => r.1 = false ∧ Owns w r.2
  | .bad => False

theorem Owns.free {w : World Ty V} {c : Contents Ty V} (h : Owns w c) {v : Nat} {old : Option Nat} (hv : w.vars v = some old) {y : Option (Option Nat)} (hy : ∀ a, y ≠ some (some a)) :
    Agrees ({ w with vars := Function.update w.vars v y }.free old) (true, Function.update c v (y.map fun _ => none)) := by
  cases old with
  | none => exact ⟨rfl, h.blank (by rw [hv]; simp) hy⟩
  | some a =>
    unfold World.free
    obtain ⟨x, hx⟩ := Option.ne_none_iff_exists'.1 (h.live v a hv)
    simp only [hx]
    exact ⟨rfl, h.drop hv hy⟩

theorem Owns.put {w : World Ty V} {c : Contents Ty V} (h : Owns w c) {v : Nat} {old : Option Nat} (hv : w.vars v = some old) (x : Ty × V) :
    Agrees ((w.new x).assign v old (some w.fresh)) (true, Function.update c v (some (some x))) := by
  cases old with
  | none => exact ⟨rfl, h.fill (by rw [hv]; simp) x⟩
  | some a =>
    obtain ⟨z, hz⟩ := Option.ne_none_iff_exists'.1 (h.live v a hv)
    have hne : a ≠ w.fresh := by rintro rfl; rw [h.fresh _ (Nat.le_refl _)] at hz; cases hz
    have h' := (h.drop hv (y := some none) (by simp)).fill (v := v) (by simp) x
    simp only [Function.update_idem] at h'
    unfold World.assign World.free World.new
    simp only [Function.update_of_ne hne, hz]
    refine ⟨rfl, ?_⟩
    rw [Function.update_comm hne.symm]
    exact h'

theorem owns_step {w : World Ty V} {c : Contents Ty V} (h : Owns w c) (o : AnyOp Ty V) :
    match c.act o, w.step o with
    | none, none => True
    | some r, some d => Agrees d r
    | _, _ => False := by
  have hc : ∀ v, c v = (w.vars v).map fun p => p.bind w.cells := h.held
  have hl : ∀ v a, w.vars v = some (some a) → ∃ x, w.cells a = some x := fun v a e => Option.ne_none_iff_exists'.1 (h.live v a e)
  cases o with
  | declare v =>
    cases hv : w.vars v with
    | none =>
      simp only [Contents.act, World.step, hc, hv, Option.map_none, if_pos]
      exact ⟨rfl, h.blank (by rw [hv]; simp) (y := some none) (by simp)⟩
    | some q => simp [Contents.act, World.step, hc, hv]
  | hold v t x fails =>
    cases hv : w.vars v with
    | none =>
      simp only [Contents.act, World.step, hc v, hv, Option.map_none, if_pos]
      cases fails
      · exact ⟨rfl, h.fill (by rw [hv]; simp) _⟩
      · exact ⟨rfl, h⟩
    | some q => simp [Contents.act, World.step, hc v, hv]
  | copy v u fails =>
    cases hv : w.vars v with
    | some q =>
      rcases hu : w.vars u with _ | _ | a
      · simp [Contents.act, World.step, hc v, hc u, hv, hu]
      · simp [Contents.act, World.step, hc v, hc u, hv, hu]
      · simp [Contents.act, World.step, hc v, hc u, hv, hu]
    | none =>
      rcases hu : w.vars u with _ | _ | a
      · simp [Contents.act, World.step, hc v, hc u, hv, hu]
      · simp only [Contents.act, World.step, hc v, hc u, hv, hu, Option.map_none, Option.map_some, Option.bind_none, World.duplicate]
        exact ⟨rfl, h.blank (by rw [hv]; simp) (y := some none) (by simp)⟩
      · obtain ⟨x, hx⟩ := hl u a hu
        simp only [Contents.act, World.step, hc v, hc u, hv, hu, Option.map_none, Option.map_some, Option.bind_some, World.duplicate, hx]
        cases fails
        · exact ⟨rfl, h.fill (by rw [hv]; simp) _⟩
        · exact ⟨rfl, h⟩
  | assign v u fails =>
    cases hv : w.vars v with
    | none =>
      rcases hu : w.vars u with _ | _ | a
      · simp [Contents.act, World.step, hc v, hc u, hv, hu]
      · simp [Contents.act, World.step, hc v, hc u, hv, hu]
      · simp [Contents.act, World.step, hc v, hc u, hv, hu]
    | some q =>
      rcases hu : w.vars u with _ | _ | a
      · simp [Contents.act, World.step, hc v, hc u, hv, hu]
      · simp only [Contents.act, World.step, hc v, hc u, hv, hu, Option.map_some, Option.bind_none, World.duplicate]
        exact h.free hv (y := some none) (by simp)
      · obtain ⟨x, hx⟩ := hl u a hu
        simp only [Contents.act, World.step, hc v, hc u, hv, hu, Option.map_some, Option.bind_some, World.duplicate, hx]
        cases fails
        · exact h.put hv x
        · exact ⟨rfl, h⟩
  | assignValue v t x fails =>
    cases hv : w.vars v with
    | none => simp [Contents.act, World.step, hc v, hv]
    | some q =>
      simp only [Contents.act, World.step, hc v, hv, Option.map_some]
      cases fails
      · exact h.put hv _
      · exact ⟨rfl, h⟩
  | swap v u =>
    cases hv : w.vars v with
    | none => simp [Contents.act, World.step, hc v, hv]
    | some p =>
      cases hu : w.vars u with
      | none => simp [Contents.act, World.step, hc v, hc u, hv, hu]
      | some q =>
        simp only [Contents.act, World.step, hc v, hc u, hv, hu, Option.map_some]
        refine ⟨rfl, ?_⟩
        obtain ⟨h1, h2, h3, h4, h5⟩ := h
        -- where a holder is found now, and where it was before
        have back : ∀ k, ∃ k', Function.update (Function.update w.vars v (some q)) u (some p) k = w.vars k' ∧ k' = (if k = u then v else if k = v then u else k) := by
          intro k
          by_cases e : k = u
          · subst e; exact ⟨v, by simp [hv], by simp⟩
          · by_cases e' : k = v
            · subst e'; exact ⟨u, by simp [e, hu], by simp [e]⟩
            · exact ⟨k, by simp [e, e'], by simp [e, e']⟩
        refine ⟨fun k => ?_, fun k a hk => ?_, fun k k' a hk hk' => ?_, fun a ha => ?_, h5⟩
        · by_cases e : k = u
          · subst e; simp
          · by_cases e' : k = v
            · subst e'; simp [e]
            · simp [e, e', h1]
        · obtain ⟨j, e, -⟩ := back k
          exact h2 j a (e ▸ hk)
        · obtain ⟨j, e, ej⟩ := back k
          obtain ⟨j', e', ej'⟩ := back k'
          have := h3 j j' a (e ▸ hk) (e' ▸ hk')
          rw [ej, ej'] at this
          split at this <;> split at this <;> (try split at this) <;> (try split at this) <;> omega
        · obtain ⟨k, hk⟩ := h4 a ha
          by_cases e : k = v
          · subst e
            refine ⟨u, ?_⟩
            rw [hv] at hk
            simpa using hk
          · by_cases e' : k = u
            · subst e'
              refine ⟨v, ?_⟩
              rw [hu] at hk
              have : v ≠ k := fun x => e x.symm
              simpa [this] using hk
            · exact ⟨k, by simpa [e, e'] using hk⟩
  | set v t x =>
    rcases hv : w.vars v with _ | _ | a
    · simp [Contents.act, World.step, hc v, hv]
    · simp only [Contents.act, World.step, hc v, hv, Option.map_some, Option.bind_none, World.isA]
      exact ⟨rfl, h⟩
    · obtain ⟨⟨t', y⟩, hx⟩ := hl v a hv
      simp only [Contents.act, World.step, hc v, hv, Option.map_some, Option.bind_some, World.isA, hx]
      by_cases e : t' = t
      · simp only [e, decide_true, if_pos]
        refine ⟨rfl, ?_⟩
        obtain ⟨h1, h2, h3, h4, h5⟩ := h
        refine ⟨fun k => ?_, fun k b hk => ?_, h3, fun b hb => ?_, fun b hb => ?_⟩
        · by_cases ek : k = v
          · subst ek; simp [hv]
          · rcases hk : w.vars k with _ | _ | b
            · simp [ek, h1, hk]
            · simp [ek, h1, hk]
            · have : b ≠ a := by rintro rfl; exact ek (h3 k v b hk hv)
              simp [ek, h1, hk, this]
        · by_cases eb : b = a
          · subst eb; simp
          · simpa [eb] using h2 k b hk
        · by_cases eb : b = a
          · subst eb; exact ⟨v, hv⟩
          · exact h4 b (by simpa [eb] using hb)
        · have eb : b ≠ a := by rintro rfl; rw [h5 b hb] at hx; cases hx
          simpa [eb] using h5 b hb
      · simp only [e, decide_false, if_false]
        exact ⟨rfl, h⟩
  | leave v =>
    cases hv : w.vars v with
    | none => simp [Contents.act, World.step, hc v, hv]
    | some q =>
      simp only [Contents.act, World.step, hc v, hv, Option.map_some]
      exact h.free hv (y := none) (by simp)

theorem owns_steps {w : World Ty V} {c : Contents Ty V} (h : Owns w c) (l : List (AnyOp Ty V)) :
    match c.acts l with
    | none => w.steps l = none
    | some r => ∃ w', w.steps l = some (some (r.1, w')) ∧ Owns w' r.2 := by
  induction l generalizing w c with
  | nil => exact ⟨w, rfl, h⟩
  | cons o l ih =>
    have hs := owns_step h o
    unfold Contents.acts World.steps
    cases hc : c.act o with
    | none =>
      rw [hc] at hs
      cases hw : w.step o with
      | none => simp
      | some d => rw [hw] at hs; exact hs.elim
    | some r =>
      rw [hc] at hs
      cases hw : w.step o with
      | none => rw [hw] at hs; exact hs.elim
      | some d =>
        rw [hw] at hs
        obtain ⟨b, c'⟩ := r
        cases d with
        | bad => exact hs.elim
        | ok w' =>
          obtain ⟨rfl, h'⟩ := hs
          have := ih h'
          dsimp only at this ⊢
          cases hr : c'.acts l with
          | none => rw [hr] at this; simpa using this
          | some r => rw [hr] at this; obtain ⟨w2, e, h2⟩ := this; exact ⟨w2, by rw [e]; rfl, h2⟩
        | throws w' =>
          obtain ⟨rfl, h'⟩ := hs
          have := ih h'
          dsimp only at this ⊢
          cases hr : c'.acts l with
          | none => rw [hr] at this; simpa using this
          | some r => rw [hr] at this; obtain ⟨w2, e, h2⟩ := this; exact ⟨w2, by rw [e]; rfl, h2⟩

/-- Whatever a program does with `Any` variables, and whenever memory runs out: nothing is deleted twice or used after that, the same operations throw as should, every variable
holds what it should (`Empty`, `IsA` and `As` tell), and there is exactly one holder for each variable that is not empty. -/
theorem C75_values (program : List (AnyOp Ty V)) (succeeded : List Bool) (c : Contents Ty V) (h : Contents.acts (fun _ => none) program = some (succeeded, c)) :
    ∃ w : World Ty V, World.start.steps program = some (some (succeeded, w)) ∧
      (∀ v, c v = none ↔ w.vars v = none) ∧
      (∀ v p, w.vars v = some p → c v = some (p.bind w.cells) ∧ (empty p = true ↔ c v = some none) ∧
        ∀ t, (w.isA p t = some true ↔ ∃ x, c v = some (some (t, x))) ∧ (w.isA p t = some false ↔ ¬ ∃ x, c v = some (some (t, x)))) ∧
      (∀ a, w.cells a ≠ none ↔ ∃! v, w.vars v = some (some a)) := by
  have := owns_steps (owns_start (Ty := Ty) (V := V)) program
  rw [h] at this
  obtain ⟨w, e, o⟩ := this
  have hc : ∀ v, c v = (w.vars v).map fun p => p.bind w.cells := o.held
  refine ⟨w, e, fun v => by rw [hc v]; simp, fun v p hp => ⟨by rw [hc v, hp]; rfl, ?_, fun t => ?_⟩, fun a => ⟨fun ha => ?_, fun ⟨v, hv, _⟩ => o.live v a hv⟩⟩
  · cases p with
    | none => simp [empty, hc v, hp]
    | some a =>
      obtain ⟨x, hx⟩ := Option.ne_none_iff_exists'.1 (o.live v a hp)
      simp [empty, hc v, hp, hx]
  · cases p with
    | none => simp [World.isA, hc v, hp]
    | some a =>
      obtain ⟨⟨t', x⟩, hx⟩ := Option.ne_none_iff_exists'.1 (o.live v a hp)
      simp [World.isA, hc v, hp, hx]
  · obtain ⟨v, hv⟩ := o.owned a ha
    exact ⟨v, hv, fun u hu => o.inj u v a hu hv⟩

/-- When all variables are gone, so is all memory. -/
theorem C75_no_leak (program : List (AnyOp Ty V)) (succeeded : List Bool) (h : Contents.acts (fun _ => none) program = some (succeeded, fun _ => none)) :
    ∃ w : World Ty V, World.start.steps program = some (some (succeeded, w)) ∧ ∀ a, w.cells a = none := by
  obtain ⟨w, e, h1, -, h3⟩ := C75_values program succeeded _ h
  refine ⟨w, e, fun a => by_contra fun ha => ?_⟩
  obtain ⟨v, hv, -⟩ := (h3 a).1 ha
  rw [(h1 v).1 rfl] at hv
  cases hv

/-- Two variables, a copy, a self-assignment, a swap, a wrong and a right access, and an assignment without memory. -/
theorem C75_case : (Contents.acts (Ty := Bool) (V := Nat) (fun _ => none)
    [.hold 0 true 5 false, .declare 1, .assign 1 0 false, .assign 1 1 false, .set 1 true 7, .set 0 false 8, .swap 0 1, .assign 0 1 true]).map
      (fun r => (r.1, r.2 0, r.2 1)) = some ([true, true, true, true, true, false, true, false], some (some (true, 7)), some (some (true, 5))) := by
  decide

end Pire.Props
