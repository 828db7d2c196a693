import Verif.Spec.Counting
import Verif.Spec.FsmLang

/-!
# What `Told` amounts to
-/

namespace Pire
namespace Count

open Spec Counting
open scoped Classical

theorem prefix_snoc {u m : List Nat} {c : Nat} (h : u <+: m ++ [c]) : u = m ++ [c] ∨ u <+: m := by
  rcases List.prefix_concat_iff.1 h with h | h
  · exact .inl h
  · exact .inr h

theorem matched_of_dead {re sep : Language Nat} {m : List Nat} {c : Nat} (h : ¬ Alive re sep (m ++ [c])) :
    Matched re sep (m ++ [c]) ↔ Matched re sep m := by
  constructor
  · rintro ⟨u, hu, hi⟩
    rcases prefix_snoc hu with rfl | hu
    · exact absurd ⟨[], by rw [List.append_nil]; exact .inl hi⟩ h
    · exact ⟨u, hu, hi⟩
  · rintro ⟨u, hu, hi⟩
    exact ⟨u, hu.trans (List.prefix_append _ _), hi⟩

theorem next_suffix {re sep : Language Nat} {s : List Nat × List Nat} {t : List Nat} (h1 : s.1 <:+ t) (h2 : s.2 <:+ t) (c : Nat) :
    (next re sep s c).1 <:+ t ++ [c] ∧ (next re sep s c).2 <:+ t ++ [c] := by
  have e1 : s.1 ++ [c] <:+ t ++ [c] := by obtain ⟨x, hx⟩ := h1; exact ⟨x, by rw [← List.append_assoc, hx]⟩
  have e2 : s.2 ++ [c] <:+ t ++ [c] := by obtain ⟨x, hx⟩ := h2; exact ⟨x, by rw [← List.append_assoc, hx]⟩
  unfold next
  simp only
  constructor
  · split <;> assumption
  · by_cases hz : Accepted re sep (if Alive re sep (s.1 ++ [c]) then s.1 ++ [c] else s.2 ++ [c]) ∨
        Accepted re sep (s.2 ++ [c]) ∧ ¬ Matched re sep (if Alive re sep (s.1 ++ [c]) then s.1 ++ [c] else s.2 ++ [c])
    · rw [if_pos hz]; exact List.nil_suffix
    · rw [if_neg hz]; exact e2

/-- Whenever the counter is told to go up, there is an item in the text read so far. -/
theorem told_item {re sep : Language Nat} {w os t : List Nat} {s : List Nat × List Nat} (h1 : s.1 <:+ t) (h2 : s.2 <:+ t) (h : Told re sep s w os)
    (h3 : 3 ∈ os) : ∃ u, u <:+: t ++ w ∧ Item re sep u := by
  induction w generalizing s os t with
  | nil => cases h; cases h3
  | cons c w ih =>
    obtain ⟨o, os', rfl, ⟨c', hc', -, ho⟩, -, hT⟩ := h
    rcases List.mem_cons.1 h3 with h3 | h3
    · rw [← h3] at ho
      unfold out at ho
      split at ho
      · cases ho
      · rename_i ha
        split at ho
        · rename_i hm
          obtain ⟨u, hu, hi⟩ := (matched_of_dead ha).1 hm
          exact ⟨u, hu.isInfix.trans (h1.isInfix.trans (List.prefix_append _ _).isInfix), hi⟩
        · cases ho
    · obtain ⟨e1, e2⟩ := next_suffix (re := re) (sep := sep) h1 h2 c
      have := ih e1 e2 hT h3
      simpa using this

theorem ops_inc {os : List Nat} (h : Op.inc ∈ os.flatMap basicOps) : 3 ∈ os := by
  rw [List.mem_flatMap] at h
  obtain ⟨o, ho, h⟩ := h
  unfold basicOps at h
  split at h
  · rename_i he; rw [← he]; exact ho
  · split at h <;> simp at h

theorem maxRun_zero {ops : List Op} {k : Nat} (h : Op.inc ∉ ops) (hk : MaxRun ops k) : k = 0 := by
  obtain ⟨⟨l, hl, hr, rfl⟩, -⟩ := hk
  cases l with
  | nil => rfl
  | cons a l =>
    have ha : a ∈ ops := hl.subset (by simp)
    cases a with
    | inc => exact absurd ha h
    | reset => exact absurd (by simp) hr

theorem not_item_nil {re sep : Language Nat} (he : [] ∉ re) : ¬ Item re sep [] := by
  rintro ⟨u, v, h, -, -, hv⟩
  obtain ⟨-, rfl⟩ := List.append_eq_nil_iff.1 h.symm
  exact he hv

theorem not_sure {re sep : Language Nat} {u : List Nat} {m : List Nat} {c : Nat} (hm : IsWord m) (hc : IsLetter c) (hd : ¬ Alive re sep (m ++ [c])) (hu : u <+: m) :
    ¬ Sure re sep u := by
  intro hs
  obtain ⟨v, rfl⟩ := hu
  refine hd ⟨[], ?_⟩
  rw [List.append_nil, List.append_assoc]
  refine hs _ ?_
  intro x hx
  rcases List.mem_append.1 hx with hx | hx
  · exact hm x (by simp [hx])
  · rw [List.mem_singleton] at hx; subst hx; exact hc

theorem plain_alive {re sep : Language Nat} {c : Nat} (hc : Plain c) : Alive re sep [c] := ⟨[], .inr ⟨c, hc, rfl⟩⟩

theorem next_steady {re sep : Language Nat} (hs : Steady re sep) {m : List Nat} {c : Nat} (hc : Plain c) :
    next re sep (m, []) c = (if Alive re sep (m ++ [c]) then m ++ [c] else [c], []) := by
  have ha : Accepted re sep [c] := .inr ⟨c, hc, rfl⟩
  have h1 : (next re sep (m, []) c).1 = if Alive re sep (m ++ [c]) then m ++ [c] else [c] := rfl
  have h2 : (next re sep (m, []) c).2 = [] := by
    have hz : Accepted re sep (next re sep (m, []) c).1 ∨ (Accepted re sep ([] ++ [c]) ∧ ¬ Matched re sep (next re sep (m, []) c).1) := by
      rw [h1]
      by_cases hd : Alive re sep (m ++ [c])
      · rw [if_pos hd]
        by_cases hm : Matched re sep (m ++ [c])
        · exact .inl (hs _ hm hd)
        · exact .inr ⟨ha, hm⟩
      · rw [if_neg hd]
        exact .inl ha
    unfold Counting.next
    exact if_pos hz
  exact Prod.ext h1 h2

/-- A word that can be continued by `c` cannot be taken for what `c'`, which ends the piece, leads to. -/
theorem not_alike {re sep : Language Nat} (he : [] ∉ re) {m : List Nat} (hm : IsWord m) (hne : m ≠ [])
    {c c' : Nat} (hc' : IsLetter c') (hp : Plain c') (hd : ¬ Alive re sep (m ++ [c'])) :
    ¬ ((Lone [c'] ↔ Lone (m ++ [c])) ∨ Settled re sep [c'] ∨ Settled re sep (m ++ [c])) := by
  rintro (h | ⟨u, v, h, hv, hs⟩ | ⟨u, v, h, hv, hs⟩)
  · obtain ⟨x, -, hx⟩ := h.1 ⟨c', hp, rfl⟩
    have := congrArg List.length hx
    simp only [List.length_append, List.length_cons, List.length_nil] at this
    cases m with
    | nil => exact hne rfl
    | cons a m => simp at this
  · have hu : u = [] := by
      cases u with
      | nil => rfl
      | cons a u =>
        have := congrArg List.length h
        cases v with
        | nil => exact absurd rfl hv
        | cons b v => simp at this
    subst hu
    exact not_sure hm hc' hd List.nil_prefix hs
  · have hu : u <+: m := by
      rcases prefix_snoc (⟨v, h.symm⟩ : u <+: m ++ [c]) with e | hu
      · rw [e] at h
        exact absurd (List.self_eq_append_right.1 h) hv
      · exact hu
    exact not_sure hm hc' hd hu hs

theorem told_steady {re sep : Language Nat} (he : [] ∉ re) (hst : Steady re sep) (hpl : PlainItems re sep) {m w os : List Nat}
    (hm : IsWord m) (hal : m = [] ∨ Alive re sep m) (hw : IsWord w) (hp : ∀ c ∈ w, Plain c) (h : Told re sep (m, []) w os) :
    os.flatMap basicOps = (pieces re sep m w).map (verdict re sep) := by
  induction w generalizing m os with
  | nil => cases h; rfl
  | cons c w ih =>
    obtain ⟨o, os', rfl, ⟨c', hc', hal2, ho⟩, hz, hT⟩ := h
    have hc : IsLetter c := hw c (by simp)
    have hpc : Plain c := hp c (by simp)
    have hcw : IsWord [c] := by intro x hx; rw [List.mem_singleton] at hx; subst hx; exact hc
    have hmc : IsWord (m ++ [c]) := by
      intro x hx
      rcases List.mem_append.1 hx with hx | hx
      · exact hm x hx
      · exact hcw x hx
    have hw' : IsWord w := fun x hx => hw x (by simp [hx])
    have hp' : ∀ c ∈ w, Plain c := fun x hx => hp x (by simp [hx])
    rw [next_steady hst hpc] at hT hal2
    have hout : o = out re sep (m, []) c := by
      rw [ho]
      unfold out
      simp only
      by_cases h1 : Alive re sep (m ++ [c])
      · rw [if_pos h1] at hal2 ⊢
        by_cases h2 : Alive re sep (m ++ [c'])
        · rw [if_pos h2]
        · exfalso
          obtain ⟨⟨k1, k2⟩, -⟩ := hal2
          have hn1 : (next re sep (m, []) c').1 = [c'] := by
            unfold next; simp only [if_neg h2, List.nil_append]
          rw [hn1] at k1 k2
          simp only at k1 k2
          have hpc' : Plain c' := by
            obtain ⟨u, hu⟩ := h1
            have huw : IsWord u := by
              rcases hu with hu | ⟨x, hx, e⟩
              · intro x hx
                have := hpl _ hu x (by simp [hx])
                unfold Plain at this
                unfold IsLetter
                constructor <;> omega
              · intro y hy
                have hy' : y ∈ m ++ [c] ++ u := by simp [hy]
                rw [e, List.mem_singleton] at hy'
                subst hy'
                unfold Plain at hx
                unfold IsLetter
                constructor <;> omega
            rcases ((k1 u huw).1.2 hu) with h3 | ⟨x, hx, e⟩
            · exact hpl _ h3 c' (by simp)
            · rw [List.singleton_append] at e
              cases e
              exact hx
          have hne : m ≠ [] := by
            rintro rfl
            exact h2 (by simpa using plain_alive hpc')
          exact not_alike he hm hne hc' hpc' h2 k2
      · by_cases h2 : Alive re sep (m ++ [c'])
        · exfalso
          have h0 : out re sep (m, []) c' = 0 := by unfold out; rw [if_pos h2]
          have := hz (by rw [ho]; exact h0)
          unfold out at this
          rw [if_neg h1] at this
          split at this <;> cases this
        · rw [if_neg h1, if_neg h2]
          have e : Matched re sep (m ++ [c]) ↔ Matched re sep (m ++ [c']) := by rw [matched_of_dead h1, matched_of_dead h2]
          by_cases h3 : Matched re sep (m ++ [c])
          · rw [if_pos h3, if_pos (e.1 h3)]
          · rw [if_neg h3, if_neg (fun h => h3 (e.2 h))]
    rw [List.flatMap_cons]
    unfold pieces
    by_cases h1 : Alive re sep (m ++ [c])
    · rw [if_pos h1] at hT ⊢
      have : o = 0 := by rw [hout]; unfold out; rw [if_pos h1]
      rw [this]
      exact ih hmc (.inr h1) hw' hp' hT
    · rw [if_neg h1] at hT ⊢
      rw [List.map_cons, ← ih hcw (.inr (plain_alive hpc)) hw' hp' hT]
      have hne : m ≠ [] := by
        rintro rfl
        exact h1 (by simpa using plain_alive hpc)
      have hma : Alive re sep m := hal.resolve_left hne
      have hit : Matched re sep m ↔ Item re sep m := by
        constructor
        · intro hmm
          rcases hst m hmm hma with h | ⟨x, -, rfl⟩
          · exact h
          · obtain ⟨u, hu, hi⟩ := hmm
            rcases prefix_snoc (m := []) hu with rfl | hu
            · exact hi
            · rw [List.prefix_nil] at hu
              subst hu
              exact absurd hi (not_item_nil he)
        · intro h; exact ⟨m, List.prefix_rfl, h⟩
      have : basicOps o = [verdict re sep m] := by
        rw [hout]
        unfold out verdict
        rw [if_neg h1, ]
        by_cases h3 : Item re sep m
        · rw [if_pos ((matched_of_dead h1).2 (hit.2 h3)), if_pos h3]; rfl
        · rw [if_neg (fun h => h3 (hit.1 ((matched_of_dead h1).1 h))), if_neg h3]; rfl
      rw [this]; rfl

theorem pieces_flatten (re sep : Language Nat) (m w : List Nat) : (pieces re sep m w).flatten ++ rest re sep m w = m ++ w := by
  induction w generalizing m with
  | nil => simp [pieces, rest]
  | cons c w ih =>
    unfold pieces rest
    split
    · rw [ih]; simp
    · rw [List.flatten_cons, List.append_assoc, ih]; simp

/-- What the counter shows is the number of items that stand one after another somewhere in the text. -/
theorem consecutive {re sep : Language Nat} {w : List Nat} {k : Nat} (h : MaxRun ((pieces re sep [] w).map (verdict re sep)) k) :
    ∃ is : List (List Nat), is.length = k ∧ (∀ i ∈ is, Item re sep i) ∧ is.flatten <:+: w := by
  obtain ⟨⟨l, ⟨a, b, hl⟩, hr, rfl⟩, -⟩ := h
  obtain ⟨ps, qs, h1, h2, h3⟩ := List.map_eq_append_iff.1 hl.symm
  obtain ⟨xs, is, h4, h5, h6⟩ := List.map_eq_append_iff.1 h2
  refine ⟨is, by rw [← h6, List.length_map], fun i hi => ?_, ?_⟩
  · by_contra hn
    apply hr
    rw [← h6, List.mem_map]
    exact ⟨i, hi, by unfold verdict; rw [if_neg hn]⟩
  · have := pieces_flatten re sep [] w
    rw [h1, h4] at this
    refine ⟨xs.flatten, qs.flatten ++ rest re sep [] w, ?_⟩
    simpa using this

end Count
end Pire
