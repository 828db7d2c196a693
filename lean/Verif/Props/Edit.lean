import Verif.Proofs.FsmOps

/-!
# Elementary edits of an automaton: property C53

`connected q p c` is `Connected(from, to, letter)`. Letters are not packed (`sparsed = false`), as in an automaton under construction.
-/

namespace Pire
namespace Props

open Fsm

variable {f : Fsm} {q p c d : Nat}

theorem connected_iff (h : f.sparsed = false) : f.connected q p c = true ↔ p ∈ f.dst q c := by
  unfold connected destinations translate
  rw [h]; simp

/-- `Connect` adds exactly the given transition. -/
theorem C53_connect (h : f.sparsed = false) (q' p' c' : Nat) :
    (f.connect q p c).connected q' p' c' = true ↔ f.connected q' p' c' = true ∨ (q' = q ∧ p' = p ∧ c' = c) := by
  rw [connected_iff h, connected_iff (f := f.connect q p c) h]
  unfold connect Fsm.dst
  simp only
  by_cases hq : q' = q ∧ c' = c
  · obtain ⟨rfl, rfl⟩ := hq
    rw [if_pos ⟨rfl, rfl⟩, Option.getD_some, Finset.mem_insert]
    simp only [true_and, and_true]
    exact or_comm
  · rw [if_neg hq]
    constructor
    · exact .inl
    · rintro (h | ⟨h1, -, h3⟩)
      · exact h
      · exact absurd ⟨h1, h3⟩ hq

/-- `Disconnect(from, to, letter)` removes exactly the given transition. -/
theorem C53_disconnect (h : f.sparsed = false) (q' p' c' : Nat) :
    (f.disconnect q p c).connected q' p' c' = true ↔ f.connected q' p' c' = true ∧ ¬ (q' = q ∧ p' = p ∧ c' = c) := by
  rw [connected_iff h, connected_iff (f := f.disconnect q p c) h]
  unfold disconnect Fsm.dst
  simp only
  by_cases hq : q' = q ∧ c' = c
  · obtain ⟨rfl, rfl⟩ := hq
    rw [if_pos ⟨rfl, rfl⟩]
    cases f.tr q' c' with
    | none => simp
    | some S => simp [and_comm]
  · rw [if_neg hq]
    exact ⟨fun h => ⟨h, fun hx => hq ⟨hx.1, hx.2.2⟩⟩, And.left⟩

/-- `Disconnect(from, to)` removes the transitions between the two states on all letters. -/
theorem C53_disconnect_all (h : f.sparsed = false) (q' p' c' : Nat) :
    (f.disconnectAny q p).connected q' p' c' = true ↔ f.connected q' p' c' = true ∧ ¬ (q' = q ∧ p' = p) := by
  rw [connected_iff h, connected_iff (f := f.disconnectAny q p) h]
  unfold disconnectAny Fsm.dst
  simp only
  by_cases hq : q' = q
  · subst hq
    rw [if_pos rfl]
    cases f.tr q' c' with
    | none => simp
    | some S => simp [and_comm]
  · rw [if_neg hq]
    exact ⟨fun h => ⟨h, fun hx => hq hx.1⟩, And.left⟩

/-- `Divert` redirects the transitions from `q` to `p`: exactly those lead to `d` now, on the same letters. -/
theorem C53_divert (h : f.sparsed = false) (q' p' c' : Nat) :
    (f.divert q p d).connected q' p' c' = true ↔
      if q' = q then (f.connected q p' c' = true ∧ (p' = p → p = d)) ∨ (p' = d ∧ f.connected q p c' = true)
      else f.connected q' p' c' = true := by
  by_cases hpd : p = d
  · subst hpd
    unfold divert
    rw [if_pos rfl]
    split
    · rename_i hq
      subst hq
      constructor
      · exact fun h => .inl ⟨h, fun _ => rfl⟩
      · rintro (h | ⟨rfl, h⟩)
        · exact h.1
        · exact h
    · rfl
  have hs : (f.divert q p d).sparsed = false := by unfold divert; rw [if_neg hpd]; exact h
  rw [connected_iff hs, connected_iff h, connected_iff h, connected_iff h]
  unfold divert Fsm.dst
  rw [if_neg hpd]
  simp only
  by_cases hq : q' = q
  · subst hq
    rw [if_pos rfl, if_pos rfl]
    cases f.tr q' c' with
    | none => simp
    | some S =>
      simp only [Option.map_some, Option.getD_some]
      by_cases hp : p ∈ S
      · rw [if_pos hp, Finset.mem_insert, Finset.mem_erase]
        constructor
        · rintro (h | ⟨h1, h2⟩)
          · exact .inr ⟨h, hp⟩
          · exact .inl ⟨h2, fun hx => absurd hx h1⟩
        · rintro (⟨h1, h2⟩ | ⟨h1, -⟩)
          · exact .inr ⟨fun hx => hpd (h2 hx), h1⟩
          · exact .inl h1
      · rw [if_neg hp]
        constructor
        · exact fun h => .inl ⟨h, fun hx => absurd (hx ▸ h) hp⟩
        · rintro (⟨h1, -⟩ | ⟨-, h2⟩)
          · exact h1
          · exact absurd h2 hp
  · rw [if_neg hq, if_neg hq]

/-- The output that was on the diverted transitions goes with them, unless there is one for the new target already. -/
theorem C53_divert_outputs {m : Nat → Option Nat} {v : Nat} (hpd : p ≠ d) (hm : f.outputs q = some m) (hv : m p = some v) :
    ∃ m', (f.divert q p d).outputs q = some m' ∧ m' p = none ∧ m' d = some ((m d).getD v) ∧ ∀ x, x ≠ p → x ≠ d → m' x = m x := by
  unfold divert
  rw [if_neg hpd]
  refine ⟨_, by simp only [if_true]; rw [hm]; rfl, ?_, ?_, ?_⟩
  · simp only [hv, if_true]
  · simp only [hv, if_neg (Ne.symm hpd), if_true]
    cases m d <;> rfl
  · intro x h1 h2
    simp only [hv, if_neg h1, if_neg h2]

/-- `SetFinal`. -/
theorem C53_set_final (b : Bool) (q' : Nat) : (f.setFinal q b).isFinal q' = true ↔ if q' = q then b = true else f.isFinal q' = true := by
  unfold setFinal isFinal
  cases b <;> by_cases hq : q' = q <;> simp [hq]

/-- `Resize` to a bigger size adds states without transitions. -/
theorem C53_resize (hw : f.WF) (h : f.sparsed = false) {n : Nat} (hn : f.size ≤ n) (q' p' c' : Nat) :
    (f.resize n).size = n ∧ ((f.resize n).connected q' p' c' = true ↔ f.connected q' p' c' = true) := by
  refine ⟨rfl, ?_⟩
  rw [connected_iff h, connected_iff (f := f.resize n) h]
  unfold resize Fsm.dst
  simp only
  split
  · rfl
  · rename_i hx
    constructor
    · intro h; simp at h
    · intro h
      have := (hw.dst_lt (q := q') (c := c') (p := p') h).1
      exact absurd ⟨this, by omega⟩ hx

/-- Three states, `a` from 0 to 1, diverted to 2. -/
example : let f := ((Fsm.init.resize 3).connect 0 1 97).divert 0 1 2
    f.connected 0 2 97 = true ∧ f.connected 0 1 97 = false := by decide +kernel

end Props
end Pire
