import Verif.Model.HalfFinal
import Verif.Spec.HalfFinal
import Verif.Proofs.Glue

/-!
# Running a half-final scanner
-/

namespace Pire
open Spec

namespace Spec

theorem positions_nil (L : Language Nat) [Decidable ([] ∈ L)] : positions L [] = if [] ∈ L then 1 else 0 := by
  classical
  unfold positions
  by_cases h : [] ∈ L <;> simp [h]

theorem inits_snoc (w : List Nat) (c : Nat) : (w ++ [c]).inits = w.inits ++ [w ++ [c]] := by
  rw [List.inits_append]
  simp

theorem positions_snoc (L : Language Nat) (w : List Nat) (c : Nat) [Decidable (w ++ [c] ∈ L)] :
    positions L (w ++ [c]) = positions L w + if w ++ [c] ∈ L then 1 else 0 := by
  classical
  unfold positions
  rw [inits_snoc, List.filter_append, List.length_append]
  congr 1
  by_cases h : w ++ [c] ∈ L <;> simp [h]

theorem positions_le (L : Language Nat) (w : List Nat) : positions L w ≤ w.length + 1 := by
  unfold positions
  refine (List.length_filter_le _ _).trans ?_
  rw [List.length_inits]

end Spec

namespace HalfFinal
open Multi
variable {P : Policy} {s : Multi}

/-- The ids counted in a state. -/
def ids (P : Policy) (s : Multi) (st : Nat) : List Nat := if (s.scn P).final st then s.acceptedRegexps P st else []

theorem bump_foldl (l : List Nat) (st : State) :
    (l.foldl (fun (st : State) i => { st with matched := Function.update st.matched i ((st.matched i + 1) % 2 ^ 64) }) st).st = st.st ∧
    ∀ i, (∀ j, st.matched j < 2 ^ 64) → (l.foldl (fun (st : State) i => { st with matched := Function.update st.matched i ((st.matched i + 1) % 2 ^ 64) }) st).matched i =
      (st.matched i + l.count i) % 2 ^ 64 := by
  induction l generalizing st with
  | nil => exact ⟨rfl, fun i h => by rw [List.foldl_nil, List.count_nil, Nat.add_zero, Nat.mod_eq_of_lt (h i)]⟩
  | cons x l ih =>
    rw [List.foldl_cons]
    obtain ⟨h1, h2⟩ := ih { st with matched := Function.update st.matched x ((st.matched x + 1) % 2 ^ 64) }
    refine ⟨h1, fun i h => ?_⟩
    rw [h2 i]
    · simp only
      by_cases hx : i = x
      · subst hx
        rw [Function.update_self, List.count_cons_self]
        omega
      · rw [Function.update_of_ne hx, List.count_cons_of_ne (Ne.symm hx)]
    · intro j
      simp only
      by_cases hj : j = x
      · subst hj; rw [Function.update_self]; exact Nat.mod_lt _ (by norm_num)
      · rw [Function.update_of_ne hj]; exact h j

theorem takeAction_spec (st : State) :
    (takeAction P s st).st = st.st ∧ ((∀ j, st.matched j < 2 ^ 64) → ∀ i, (takeAction P s st).matched i = (st.matched i + (ids P s st.st).count i) % 2 ^ 64) := by
  unfold takeAction ids
  by_cases h : (s.scn P).final st.st = true
  · rw [if_pos h, if_pos h]
    exact ⟨(bump_foldl _ _).1, fun hj i => (bump_foldl _ _).2 i hj⟩
  · rw [if_neg h, if_neg h]
    exact ⟨rfl, fun hj i => by rw [List.count_nil, Nat.add_zero, Nat.mod_eq_of_lt (hj i)]⟩

/-- The number of times `i` is counted along a word. -/
def total (P : Policy) (s : Multi) (i : Nat) (w : List Nat) : Nat :=
  (w.inits.map fun u => (ids P s ((s.scn P).after (s.scn P).initial u)).count i).sum

theorem total_nil (i : Nat) : total P s i [] = (ids P s s.m.initial).count i := by
  unfold total; simp [Scn.after, Multi.scn]

theorem total_snoc (i : Nat) (w : List Nat) (c : Nat) :
    total P s i (w ++ [c]) = total P s i w + (ids P s ((s.scn P).after (s.scn P).initial (w ++ [c]))).count i := by
  unfold total; rw [inits_snoc, List.map_append, List.sum_append]; simp

theorem after_snoc' {σ α : Type} (sc : Scn σ α) (st : σ) (w : List Nat) (c : Nat) : sc.after st (w ++ [c]) = sc.step (sc.after st w) c := by
  unfold Scn.after; rw [List.foldl_append]; rfl

/-- A run: the state is that of the plain scanner, the counters are the totals. -/
theorem run_spec (w : List Nat) :
    ((scn P s).after (scn P s).initial w).st = (s.scn P).after (s.scn P).initial w ∧
    ∀ i, ((scn P s).after (scn P s).initial w).matched i = total P s i w % 2 ^ 64 := by
  induction w using List.reverseRecOn with
  | nil =>
    obtain ⟨h1, h2⟩ := takeAction_spec (P := P) (s := s) { st := s.m.initial, matched := fun _ => 0 }
    refine ⟨h1, fun i => ?_⟩
    rw [total_nil]
    have := h2 (fun _ => by norm_num) i
    rw [Nat.zero_add] at this
    exact this
  | append_singleton w c ih =>
    rw [after_snoc', after_snoc']
    obtain ⟨i1, i2⟩ := ih
    generalize hst : (scn P s).after (scn P s).initial w = st at *
    obtain ⟨h1, h2⟩ := takeAction_spec (P := P) (s := s) { st with st := s.next P st.st c }
    have e : (scn P s).step st c = takeAction P s { st with st := s.next P st.st c } := rfl
    have e' : (s.scn P).step ((s.scn P).after (s.scn P).initial w) c = s.next P st.st c := by rw [i1]; rfl
    rw [e, e']
    refine ⟨h1, fun i => ?_⟩
    rw [h2 (fun j => by rw [i2 j]; exact Nat.mod_lt _ (by norm_num)) i, total_snoc, after_snoc', e']
    simp only
    rw [i2 i, Nat.mod_add_mod]

/-- Counting of a scanner that recognises languages. -/
theorem recognizes_total {Ls : List (Language Nat)} (h : Recognizes P s Ls) {i : Nat} {L : Language Nat} (hL : Ls[i]? = some L) {w : List Nat}
    (hw : IsWord w) : total P s i w = positions L w := by
  classical
  have key : ∀ u, IsWord u → (ids P s ((s.scn P).after (s.scn P).initial u)).count i = if u ∈ L then 1 else 0 := by
    intro u hu
    have hacc := h.accepted u hu
    have hfin := h.final u hu
    have hi := (List.getElem?_eq_some_iff.1 hL).1
    have hg : Ls.getD i 0 = L := by rw [List.getD_eq_getElem?_getD, hL]; rfl
    have hc : (hits Ls u).count i = if u ∈ L then 1 else 0 := by
      unfold hits
      by_cases hu' : u ∈ L
      · rw [if_pos hu', List.count_eq_one_of_mem (List.nodup_range.filter _)]
        rw [List.mem_filter, List.mem_range, decide_eq_true_eq, hg]; exact ⟨hi, hu'⟩
      · rw [if_neg hu', List.count_eq_zero]
        rw [List.mem_filter, List.mem_range, decide_eq_true_eq, hg]; tauto
    unfold ids
    by_cases hf : (s.scn P).final ((s.scn P).after (s.scn P).initial u) = true
    · rw [if_pos hf, hacc, hc]
    · rw [if_neg hf, List.count_nil]
      rw [hfin] at hf
      rw [if_neg]
      intro hu'
      exact hf ⟨L, List.mem_of_getElem? hL, hu'⟩
  induction w using List.reverseRecOn with
  | nil =>
    have := key [] (by intro c hc; cases hc)
    rw [total_nil, positions_nil]
    exact this
  | append_singleton w c ih =>
    rw [total_snoc, positions_snoc, ih (fun x hx => hw x (by simp [hx])), key _ hw]

end HalfFinal
end Pire
