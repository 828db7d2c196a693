import Verif.Proofs.CaptureFast

/-!
# `SlowCapturingScanner`: the exploration of the states
-/

namespace Pire
namespace Capture
open Spec

/-- The arrays encode the lists of transitions `J` and the final states `F`. -/
structure TRepr (t : Table) (n : Nat) (J : Nat → Nat → List (Nat × Nat)) (F : Nat → Bool) : Prop where
  states : t.statesCount = n
  start_lt : t.start < n
  next : ∀ q < n, ∀ c < 264, t.nextStates q c = some (J q c)
  lt : ∀ q < n, ∀ c < 264, ∀ tr ∈ J q c, tr.1 < n
  final : ∀ q < n, t.isFinal q = some (F q)

variable {t : Table} {n : Nat} {J : Nat → Nat → List (Nat × Nat)} {F : Nat → Bool}

/-- All the states of the three groups. -/
def Groups.all (g : Groups) : List Single := g.nonGreedy ++ g.nothing ++ g.greedy

theorem Groups.all_insert (g i : Groups) (a : Nat) : (g.insert i a).all.Perm (g.all ++ i.all) := by
  unfold Groups.insert Groups.all
  split
  · simp only [List.append_assoc]
    refine List.Perm.append_left _ ?_
    rw [← List.append_assoc, ← List.append_assoc, ← List.append_assoc g.nothing]
    refine List.perm_append_comm.trans ?_
    simp only [List.append_assoc]
    exact List.Perm.refl _
  · split
    · simp only [List.append_assoc]
      refine List.Perm.append_left _ ?_
      rw [List.perm_iff_count]
      intro x
      simp only [List.count_append]
      omega
    · simp only [List.append_assoc]
      exact List.Perm.refl _

theorem Groups.all_push (i : Groups) (s : Single) : (Groups.all { i with nothing := i.nothing ++ [s] }).Perm (i.all ++ [s]) := by
  unfold Groups.all
  rw [List.perm_iff_count]
  intro x
  simp only [List.count_append]
  omega

/-- What the exploration from a thread reaches: one transition with the letter, then epsilons. -/
inductive Path (J : Nat → Nat → List (Nat × Nat)) (pos : Nat) (cur : Single) (letter : Nat) : Single → Prop
  | one {tr} : tr ∈ J cur.num letter → Path J pos cur letter (advance cur pos tr)
  | eps {s tr} : Path J pos cur letter s → tr ∈ J s.num 257 → Path J pos cur letter (advance s pos tr)

theorem advance_num (cur : Single) (pos : Nat) (tr : Nat × Nat) : (advance cur pos tr).num = tr.1 := by
  unfold advance Single.setBegin Single.setEnd Single.mk0
  simp only
  repeat' split
  all_goals rfl

theorem Path.cons {pos : Nat} {cur s : Single} {letter : Nat} {tr : Nat × Nat} (h : tr ∈ J cur.num letter) (hp : Path J pos (advance cur pos tr) 257 s) :
    Path J pos cur letter s := by
  induction hp with
  | one h' => exact .eps (.one h) h'
  | eps _ h' ih => exact .eps ih h'

/-- How many states are not used yet. -/
def unused (n : Nat) (used : Nat → Bool) : Nat := ((List.range n).filter fun q => !used q).length

theorem unused_mono {used used' : Nat → Bool} (h : ∀ q, used q = true → used' q = true) : unused n used' ≤ unused n used := by
  unfold unused
  refine List.Sublist.length_le (List.monotone_filter_right _ fun q hq => ?_)
  cases hu : used q with
  | false => rfl
  | true => rw [h q hu] at hq; exact hq

theorem unused_lt {used : Nat → Bool} {p : Nat} (hp : p < n) (h : used p = false) : unused n (Function.update used p true) < unused n used := by
  have h1 := unused_mono (n := n) (used := used) (used' := Function.update used p true) fun q hq => by
    by_cases hqp : q = p
    · subst hqp; simp
    · rw [Function.update_of_ne hqp]; exact hq
  rcases Nat.lt_or_ge (unused n (Function.update used p true)) (unused n used) with h2 | h2
  · exact h2
  · exfalso
    have hsub : ((List.range n).filter fun q => !(Function.update used p true) q).Sublist ((List.range n).filter fun q => !used q) := by
      refine List.monotone_filter_right _ fun q hq => ?_
      by_cases hqp : q = p
      · subst hqp; simp at hq
      · rw [Function.update_of_ne hqp] at hq; exact hq
    have e := hsub.eq_of_length_le h2
    have hm : p ∈ (List.range n).filter fun q => !used q := List.mem_filter.2 ⟨List.mem_range.2 hp, by rw [h]; rfl⟩
    rw [← e, List.mem_filter] at hm
    simp at hm

theorem unused_le (used : Nat → Bool) : unused n used ≤ n := by
  unfold unused
  refine (List.length_filter_le _ _).trans ?_
  rw [List.length_range]

/-- What a call of the exploration does. -/
structure Explored (J : Nat → Nat → List (Nat × Nat)) (n pos : Nat) (cur : Single) (letter : Nat) (trs : List (Nat × Nat)) (acc r : Groups × (Nat → Bool)) (new : List Single) :
    Prop where
  all : r.1.all.Perm (acc.1.all ++ new)
  nodup : (new.map Single.num).Nodup
  fresh : ∀ s ∈ new, acc.2 s.num = false ∧ s.num < n ∧ Path J pos cur letter s
  used : ∀ q, r.2 q = true ↔ acc.2 q = true ∨ q ∈ new.map Single.num
  one : ∀ tr ∈ trs, r.2 tr.1 = true
  eps : ∀ s ∈ new, ∀ tr ∈ J s.num 257, r.2 tr.1 = true

theorem explore_spec (h : TRepr t n J F) (pos : Nat) : ∀ (fuel : Nat) (acc : Groups × (Nat → Bool)) (cur : Single) (letter : Nat), cur.num < n → letter < 264 →
    unused n acc.2 < fuel → ∃ r new, t.explore fuel acc cur letter pos = some r ∧ Explored J n pos cur letter (J cur.num letter) acc r new := by
  intro fuel
  induction fuel with
  | zero => intro acc cur letter _ _ hf; exact absurd hf (Nat.not_lt_zero _)
  | succ fuel ih =>
    intro acc cur letter hcur hl hf
    unfold Table.explore
    rw [h.next _ hcur _ hl, Option.bind_some]
    have key : ∀ (trs : List (Nat × Nat)), (∀ tr ∈ trs, tr ∈ J cur.num letter) → ∀ acc : Groups × (Nat → Bool), unused n acc.2 < fuel + 1 →
        ∃ r new, trs.foldlM (fun acc tr =>
          if tr.1 < t.statesCount then
            if acc.2 tr.1 then some acc
            else
              (Table.explore t fuel (⟨[], [], []⟩, Function.update acc.2 tr.1 true) (advance cur pos tr) Epsilon pos).map fun r =>
                (acc.1.insert { r.1 with nothing := r.1.nothing ++ [advance cur pos tr] } tr.2, r.2)
          else none) acc = some r ∧ Explored J n pos cur letter trs acc r new := by
      intro trs
      induction trs with
      | nil =>
        intro _ acc _
        exact ⟨acc, [], rfl, by simp, by simp, by simp, by simp, by simp, by simp⟩
      | cons tr trs ihl =>
        intro hm acc hf
        have htr := hm tr (List.mem_cons_self ..)
        have hlt := h.lt _ hcur _ hl _ htr
        rw [List.foldlM_cons, if_pos (by rw [h.states]; exact hlt)]
        cases hu : acc.2 tr.1 with
        | true =>
          rw [if_pos rfl, Option.bind_eq_bind, Option.bind_some]
          obtain ⟨r, new, e, hr⟩ := ihl (fun x hx => hm x (List.mem_cons_of_mem _ hx)) acc hf
          refine ⟨r, new, e, hr.all, hr.nodup, hr.fresh, hr.used, fun x hx => ?_, hr.eps⟩
          rcases List.mem_cons.1 hx with rfl | hx
          · exact (hr.used _).2 (.inl hu)
          · exact hr.one x hx
        | false =>
          rw [if_neg (by simp)]
          obtain ⟨r1, new1, e1, h1⟩ := ih (⟨[], [], []⟩, Function.update acc.2 tr.1 true) (advance cur pos tr) 257 (by rw [advance_num]; exact hlt) (by omega)
            (by have := unused_lt (n := n) hlt hu; simp only; omega)
          have e1' : t.explore fuel (⟨[], [], []⟩, Function.update acc.2 tr.1 true) (advance cur pos tr) Epsilon pos = some r1 := e1
          rw [e1', Option.map_some, Option.bind_eq_bind, Option.bind_some]
          have hup : ∀ q, Function.update acc.2 tr.1 true q = true ↔ acc.2 q = true ∨ q = tr.1 := by
            intro q
            by_cases hq : q = tr.1
            · subst hq; simp
            · rw [Function.update_of_ne hq]; simp [hq]
          have hmono : ∀ q, acc.2 q = true → r1.2 q = true := fun q hq => (h1.used q).2 (.inl ((hup q).2 (.inl hq)))
          have hself : r1.2 tr.1 = true := (h1.used _).2 (.inl ((hup _).2 (.inr rfl)))
          obtain ⟨r, new, e, hr⟩ := ihl (fun x hx => hm x (List.mem_cons_of_mem _ hx))
            (acc.1.insert { r1.1 with nothing := r1.1.nothing ++ [advance cur pos tr] } tr.2, r1.2)
            (by have := unused_mono (n := n) hmono; simp only; omega)
          refine ⟨r, (new1 ++ [advance cur pos tr]) ++ new, e, ?_, ?_, ?_, ?_, ?_, ?_⟩
          · refine hr.all.trans ?_
            simp only
            rw [← List.append_assoc]
            refine List.Perm.append_right _ ((Groups.all_insert _ _ _).trans (List.Perm.append_left _ ((Groups.all_push _ _).trans (List.Perm.append_right _ ?_))))
            simpa [Groups.all] using h1.all
          · rw [List.map_append, List.map_append, List.nodup_append, List.nodup_append]
            refine ⟨⟨h1.nodup, by simp, ?_⟩, hr.nodup, ?_⟩
            · intro a ha b hb heq
              obtain ⟨s, hs, rfl⟩ := List.mem_map.1 ha
              have := (h1.fresh s hs).1
              rw [List.map_singleton, List.mem_singleton, advance_num] at hb
              rw [heq, hb] at this
              simp at this
            · intro a ha b hb heq
              obtain ⟨s, hs, rfl⟩ := List.mem_map.1 hb
              have h2 := (hr.fresh s hs).1
              simp only at h2
              rw [← heq] at h2
              have h3 : r1.2 a = true := by
                rcases List.mem_append.1 ha with ha | ha
                · exact (h1.used a).2 (.inr ha)
                · rw [List.map_singleton, List.mem_singleton, advance_num] at ha
                  rw [ha]; exact hself
              rw [h3] at h2; cases h2
          · intro s hs
            rcases List.mem_append.1 hs with hs | hs
            · rcases List.mem_append.1 hs with hs | hs
              · obtain ⟨f1, f2, f3⟩ := h1.fresh s hs
                refine ⟨?_, f2, f3.cons htr⟩
                cases hx : acc.2 s.num with
                | false => rfl
                | true => simp only [(hup _).2 (.inl hx)] at f1; cases f1
              · rw [List.mem_singleton] at hs
                subst hs
                exact ⟨by rw [advance_num]; exact hu, by rw [advance_num]; exact hlt, .one htr⟩
            · obtain ⟨f1, f2, f3⟩ := hr.fresh s hs
              refine ⟨?_, f2, f3⟩
              cases hx : acc.2 s.num with
              | false => rfl
              | true => simp only [hmono _ hx] at f1; cases f1
          · intro q
            rw [hr.used q]
            simp only
            rw [h1.used q, hup q, List.map_append, List.map_append, List.mem_append, List.mem_append, List.map_singleton, List.mem_singleton, advance_num]
            tauto
          · intro x hx
            rcases List.mem_cons.1 hx with rfl | hx
            · exact (hr.used _).2 (.inl hself)
            · exact hr.one x hx
          · intro s hs x hx
            rcases List.mem_append.1 hs with hs | hs
            · refine (hr.used _).2 (.inl ?_)
              rcases List.mem_append.1 hs with hs | hs
              · exact h1.eps s hs x hx
              · rw [List.mem_singleton] at hs
                subst hs
                exact h1.one x hx
            · exact hr.eps s hs x hx
    exact key _ (fun _ h => h) acc hf

end Capture
end Pire
