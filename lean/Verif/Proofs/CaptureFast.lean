import Verif.Model.Capture
import Verif.Spec.Capture
import Verif.Proofs.CountBuilt

/-!
# `CapturingScanner`: what the actions do to the positions
-/

namespace Pire
namespace Capture
open Spec

theorem opt_npos : opt npos = none := if_pos rfl
theorem opt_of_lt {x : Nat} (h : x < npos) : opt x = some x := if_neg (Nat.ne_of_lt h)
theorem opt_isSome {x : Nat} : (opt x).isSome = true ↔ x ≠ npos := by unfold opt; split <;> simp_all

variable {as : List Nat} {a : Nat}

theorem begins_lt {i : Nat} (h : BeginsAt as i) : i < as.length := by
  obtain ⟨x, hx, -⟩ := h; exact (List.getElem?_eq_some_iff.1 hx).1
theorem ends_lt {i : Nat} (h : EndsAt as i) : i < as.length := by
  obtain ⟨x, hx, -⟩ := h; exact (List.getElem?_eq_some_iff.1 hx).1

theorem getElem?_snoc (i : Nat) (x : Nat) : (as ++ [a])[i]? = some x ↔ as[i]? = some x ∨ (i = as.length ∧ a = x) := by
  rw [List.getElem?_append]
  split
  · rename_i h
    constructor
    · exact .inl
    · rintro (h' | h')
      · exact h'
      · omega
  · rename_i h
    rw [List.getElem?_singleton, List.getElem?_eq_none (by omega)]
    constructor
    · intro h'
      split at h'
      · injection h' with h'; exact .inr ⟨by omega, h'⟩
      · cases h'
    · rintro (h' | ⟨rfl, rfl⟩)
      · cases h'
      · simp

theorem begins_snoc (i : Nat) : BeginsAt (as ++ [a]) i ↔ BeginsAt as i ∨ (i = as.length ∧ a.testBit 0 = true) := by
  unfold BeginsAt
  simp only [getElem?_snoc]
  constructor
  · rintro ⟨x, h | ⟨h, rfl⟩, hx⟩
    · exact .inl ⟨x, h, hx⟩
    · exact .inr ⟨h, hx⟩
  · rintro (⟨x, h, hx⟩ | ⟨h, hx⟩)
    · exact ⟨x, .inl h, hx⟩
    · exact ⟨a, .inr ⟨h, rfl⟩, hx⟩

theorem ends_snoc (i : Nat) : EndsAt (as ++ [a]) i ↔ EndsAt as i ∨ (i = as.length ∧ a.testBit 1 = true ∧ a.testBit 0 = false) := by
  unfold EndsAt
  simp only [getElem?_snoc]
  constructor
  · rintro ⟨x, h | ⟨h, rfl⟩, hx⟩
    · exact .inl ⟨x, h, hx⟩
    · exact .inr ⟨h, hx⟩
  · rintro (⟨x, h, hx⟩ | ⟨h, hx⟩)
    · exact ⟨x, .inl h, hx⟩
    · exact ⟨a, .inr ⟨h, rfl⟩, hx⟩

theorem done_snoc {k : Nat} (h : k ≤ as.length) : DoneBy (as ++ [a]) k ↔ DoneBy as k := by
  unfold DoneBy
  simp only [begins_snoc, ends_snoc]
  constructor
  · rintro ⟨⟨i, hi, h1⟩, j, hj, h2⟩
    exact ⟨⟨i, hi, h1.resolve_right fun h => by omega⟩, j, hj, h2.resolve_right fun h => by omega⟩
  · rintro ⟨⟨i, hi, h1⟩, j, hj, h2⟩
    exact ⟨⟨i, hi, .inl h1⟩, j, hj, .inl h2⟩

theorem lastOpen_none {P : Nat → Prop} (hd : ∀ k, DoneBy as k → ∃ i < k, P i) (h : LastOpen as P none) : ∀ i, ¬ P i := by
  intro i
  induction i using Nat.strong_induction_on with
  | _ i ih =>
    intro hi
    obtain ⟨j, hj, hp⟩ := hd i (h i hi)
    exact ih j hj hp

theorem lastOpen_begin {x : Option Nat} (h : LastOpen as (BeginsAt as) x) : x.isSome = true ↔ ∃ i, BeginsAt as i := by
  cases x with
  | none =>
    have := lastOpen_none (fun k hk => hk.1) h
    simp [this]
  | some x => simp only [Option.isSome_some, true_iff]; exact ⟨x, h.1⟩

theorem lastOpen_end {x : Option Nat} (h : LastOpen as (EndsAt as) x) : x.isSome = true ↔ ∃ i, EndsAt as i := by
  cases x with
  | none =>
    have := lastOpen_none (fun k hk => hk.2) h
    simp [this]
  | some x => simp only [Option.isSome_some, true_iff]; exact ⟨x, h.1⟩

theorem lastOpen_snoc {P P' : Nat → Prop} {β : Prop} (hP : ∀ i, P' i ↔ P i ∨ (i = as.length ∧ β)) (hlt : ∀ i, P i → i < as.length) {x : Option Nat}
    (h : LastOpen as P x) :
    (β → ¬ DoneBy as as.length → LastOpen (as ++ [a]) P' (some as.length)) ∧ (¬ β ∨ DoneBy as as.length → LastOpen (as ++ [a]) P' x) := by
  constructor
  · intro hβ hd
    refine ⟨(hP _).2 (.inr ⟨rfl, hβ⟩), by rwa [done_snoc (Nat.le_refl _)], fun i hi hl => ?_⟩
    rcases (hP i).1 hi with h' | ⟨h', -⟩
    · have := hlt i h'; omega
    · omega
  · intro hno
    have key : ∀ i, P' i → (P i → DoneBy as i) → DoneBy (as ++ [a]) i := by
      intro i hi hi'
      rcases (hP i).1 hi with h' | ⟨h', hβ⟩
      · rw [done_snoc (Nat.le_of_lt (hlt i h'))]; exact hi' h'
      · rw [done_snoc (by omega), h']
        exact hno.resolve_left fun hn => hn hβ
    cases x with
    | none => exact fun i hi => key i hi (h i)
    | some x =>
      refine ⟨(hP x).2 (.inl h.1), by rw [done_snoc (Nat.le_of_lt (hlt x h.1))]; exact h.2.1, fun i hi hl => key i hi fun hp => h.2.2 i hp hl⟩

/-- One transition seen from the positions: `TakeAction` after the counter was moved to `k + 1`. -/
def capStep (x : Nat × Nat) (k a : Nat) : Nat × Nat :=
  if x.1 ≠ npos ∧ x.2 ≠ npos then x
  else if a.testBit 0 = true then (k, x.2) else if a.testBit 1 = true then (x.1, k) else x

/-- The positions after a list of actions. -/
def capFold (as : List Nat) : Nat × Nat := as.zipIdx.foldl (fun x a => capStep x a.2 a.1) (npos, npos)

theorem capFold_snoc (as : List Nat) (a : Nat) : capFold (as ++ [a]) = capStep (capFold as) as.length a := by
  unfold capFold
  rw [List.zipIdx_append, List.foldl_append]
  simp

theorem capFold_spec (as : List Nat) (h : as.length ≤ npos) :
    LastOpen as (BeginsAt as) (opt (capFold as).1) ∧ LastOpen as (EndsAt as) (opt (capFold as).2) := by
  induction as using List.reverseRecOn with
  | nil =>
    have h1 : ∀ i, ¬ BeginsAt [] i := fun i h => by have := begins_lt h; simp at this
    have h2 : ∀ i, ¬ EndsAt [] i := fun i h => by have := ends_lt h; simp at this
    exact ⟨fun i hi => absurd hi (h1 i), fun i hi => absurd hi (h2 i)⟩
  | append_singleton as a ih =>
    rw [List.length_append, List.length_singleton] at h
    obtain ⟨hb, he⟩ := ih (by omega)
    rw [capFold_snoc]
    have hk : opt as.length = some as.length := opt_of_lt (by omega)
    have hdone : ((capFold as).1 ≠ npos ∧ (capFold as).2 ≠ npos) ↔ DoneBy as as.length := by
      rw [← opt_isSome, ← opt_isSome, lastOpen_begin hb, lastOpen_end he]
      constructor
      · rintro ⟨⟨i, hi⟩, j, hj⟩; exact ⟨⟨i, begins_lt hi, hi⟩, j, ends_lt hj, hj⟩
      · rintro ⟨⟨i, -, hi⟩, j, -, hj⟩; exact ⟨⟨i, hi⟩, j, hj⟩
    obtain ⟨b1, b2⟩ := lastOpen_snoc (a := a) (P' := BeginsAt (as ++ [a])) begins_snoc (fun i => begins_lt) hb
    obtain ⟨e1, e2⟩ := lastOpen_snoc (a := a) (P' := EndsAt (as ++ [a])) ends_snoc (fun i => ends_lt) he
    unfold capStep
    by_cases hd : (capFold as).1 ≠ npos ∧ (capFold as).2 ≠ npos
    · rw [if_pos hd]
      exact ⟨b2 (.inr (hdone.1 hd)), e2 (.inr (hdone.1 hd))⟩
    · rw [if_neg hd]
      have hd' : ¬ DoneBy as as.length := fun h => hd (hdone.2 h)
      by_cases h0 : a.testBit 0 = true
      · rw [if_pos h0]
        refine ⟨by rw [hk]; exact b1 h0 hd', e2 (.inl fun h => ?_)⟩
        rw [h0] at h; cases h.2
      · rw [if_neg h0]
        have h0' : a.testBit 0 = false := by simpa using h0
        by_cases h1 : a.testBit 1 = true
        · rw [if_pos h1]
          exact ⟨b2 (.inl h0), by rw [hk]; exact e1 ⟨h1, h0'⟩ hd'⟩
        · rw [if_neg h1]
          exact ⟨b2 (.inl h0), e2 (.inl fun h => h1 h.1)⟩

theorem takeAction_eq (s : State) (a : Nat) (hc : 0 < s.counter) (hl : s.counter ≤ 2 ^ 64) :
    takeAction s a = { s with beg := (capStep (s.beg, s.fin) (s.counter - 1) a).1, fin := (capStep (s.beg, s.fin) (s.counter - 1) a).2 } := by
  have e : (s.counter + 2 ^ 64 - 1) % 2 ^ 64 = s.counter - 1 := by omega
  have b0 : (a &&& 1 ≠ 0) ↔ a.testBit 0 = true := by have := Count.bit_ne a 0; simpa using this
  have b1 : (a &&& 2 ≠ 0) ↔ a.testBit 1 = true := by have := Count.bit_ne a 1; simpa using this
  have hcap : s.captured = false ↔ ¬ (s.beg ≠ npos ∧ s.fin ≠ npos) := by
    unfold State.captured
    rw [← Bool.not_eq_true]
    simp
  unfold takeAction capStep
  simp only [e, b0, b1, hcap]
  by_cases h : s.beg ≠ npos ∧ s.fin ≠ npos
  · simp [h]
  · rw [if_neg h]
    simp only [h, not_false_eq_true, and_true]
    by_cases h0 : a.testBit 0 = true
    · simp [h0]
    · by_cases h1 : a.testBit 1 = true
      · simp [h0, h1]
      · simp [h0, h1]

open Loaded

theorem acts_snoc (T : ATbl) (w : List Nat) (c : Nat) : ∀ q, T.acts q (w ++ [c]) = T.acts q w ++ [T.act (T.after q w) c] := by
  induction w with
  | nil => intro q; rfl
  | cons x w ih =>
    intro q
    rw [List.cons_append, ATbl.acts, ATbl.acts, ih, List.cons_append]
    rfl

/-- The scanner after a word. -/
theorem after_eq {s : Loaded} {T : ATbl} (h : Repr s T) (w : List Nat) (hw : IsWord w) (hl : w.length < 2 ^ 64) :
    (scn s).after (scn s).initial w = { st := s.indexToState (T.after T.q0 w), beg := (capFold (T.acts T.q0 w)).1, fin := (capFold (T.acts T.q0 w)).2,
                                        counter := w.length } ∧ T.after T.q0 w < T.n := by
  induction w using List.reverseRecOn with
  | nil =>
    refine ⟨?_, h.q0⟩
    show (scn s).initial = _
    unfold scn
    simp only [h.initial]
    rfl
  | append_singleton w c ih =>
    rw [List.length_append, List.length_singleton] at hl ⊢
    obtain ⟨e, hq⟩ := ih (fun x hx => hw x (List.mem_append_left _ hx)) (by omega)
    have hc : IsLetter c := hw c (by simp)
    have ea : T.after T.q0 (w ++ [c]) = T.step (T.after T.q0 w) c := by unfold ATbl.after; rw [List.foldl_append]; rfl
    have eacts : T.acts T.q0 (w ++ [c]) = T.acts T.q0 w ++ [T.act (T.after T.q0 w) c] := acts_snoc T w c T.q0
    refine ⟨?_, by rw [ea]; exact h.step_lt _ hq c hc⟩
    have e1 : (scn s).after (scn s).initial (w ++ [c]) = (scn s).step ((scn s).after (scn s).initial w) c := by
      unfold Scn.after; rw [List.foldl_append]; rfl
    rw [e1, e, ea, eacts, capFold_snoc, ATbl.acts_length]
    unfold Scn.step scn
    simp only [h.next _ hq c hc]
    rw [takeAction_eq _ _ (by simp only; omega) (by simp only; omega)]
    have e2 : (w.length + 1) % 2 ^ 64 = w.length + 1 := by omega
    simp only [e2, Nat.add_sub_cancel]

end Capture
end Pire
