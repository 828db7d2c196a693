import Verif.Proofs.AdvTable
import Verif.Proofs.AdvSimple
import Verif.Props.Count
import Verif.Spec.Counting

/-! # The scanner made of the table of an advanced counting scanner -/

namespace Pire
namespace Count
namespace Adv

open Spec Loaded Counting

/-! ### What counters show -/

/-- The counter after the actions. -/
def counter (n : Nat) (os : List Nat) : Nat := os.foldl count n

theorem counter_snoc (n : Nat) (os : List Nat) (a : Nat) : counter n (os ++ [a]) = count (counter n os) a := by
  unfold counter; rw [List.foldl_append]; rfl

/-- The counter is the length of what follows the last reset. -/
theorem counter_suffix (os : List Nat) : ∃ l, l <:+ os.flatMap advancedOps ∧ Op.reset ∉ l ∧ l.length = counter 0 os ∧
    ∀ l', l' <:+ os.flatMap advancedOps → Op.reset ∉ l' → l'.length ≤ counter 0 os := by
  induction os using List.reverseRecOn with
  | nil => exact ⟨[], List.nil_suffix, by simp, rfl, fun l' h _ => by rw [List.suffix_nil.1 h]; exact Nat.le_refl _⟩
  | append_singleton os a ih =>
    obtain ⟨l, h1, h2, h3, h4⟩ := ih
    rw [counter_snoc, List.flatMap_append, List.flatMap_singleton]
    unfold advancedOps count
    by_cases hr : a.testBit 1 = true <;> by_cases hi : a.testBit 0 = true
    · rw [if_pos hr, if_pos hi, if_pos hr, if_pos hi]
      refine ⟨[.inc], ⟨os.flatMap advancedOps ++ [.reset], by unfold advancedOps; simp⟩, by simp, rfl, ?_⟩
      intro l' h5 h6
      by_contra h7
      have : [Op.reset, Op.inc] <:+ l' :=
        List.suffix_of_suffix_length_le ⟨os.flatMap advancedOps, by unfold advancedOps; simp⟩ h5 (by simp; omega)
      exact h6 (this.subset (by simp))
    · rw [if_pos hr, if_neg hi, if_pos hr, if_neg hi]
      refine ⟨[], List.nil_suffix, by simp, rfl, ?_⟩
      intro l' h5 h6
      by_contra h7
      have : [Op.reset] <:+ l' := List.suffix_of_suffix_length_le ⟨os.flatMap advancedOps, by unfold advancedOps; simp⟩ h5 (by simp; omega)
      exact h6 (this.subset (by simp))
    · rw [if_neg hr, if_pos hi, if_neg hr, if_pos hi]
      refine ⟨l ++ [.inc], ?_, ?_, by rw [List.length_append, h3]; rfl, ?_⟩
      · obtain ⟨p, hp⟩ := h1
        exact ⟨p, by rw [← List.append_assoc, hp]; rfl⟩
      · simp [h2]
      · intro l' h5 h6
        rcases List.suffix_concat_iff.1 (show l' <:+ os.flatMap advancedOps ++ [Op.inc] from h5) with rfl | ⟨t, rfl, ht⟩
        · exact Nat.zero_le _
        · rw [List.length_append]
          exact Nat.add_le_add_right (h4 t ht (fun h => h6 (List.mem_append_left _ h))) 1
    · rw [if_neg hr, if_neg hi, if_neg hr, if_neg hi]
      refine ⟨l, ?_, h2, h3, ?_⟩
      · rw [List.append_nil, List.append_nil]; exact h1
      · rw [List.append_nil, List.append_nil]; exact h4

/-- What is shown is the greatest value the counter has had. -/
theorem maxRun_counter {os : List Nat} {k : Nat} (h : MaxRun (os.flatMap advancedOps) k) :
    (∃ p, p <+: os ∧ counter 0 p = k) ∧ ∀ p, p <+: os → counter 0 p ≤ k := by
  have up : ∀ p, p <+: os → counter 0 p ≤ k := by
    rintro p ⟨q, rfl⟩
    obtain ⟨l, ⟨x, h1⟩, h2, h3, -⟩ := counter_suffix p
    rw [← h3]
    refine h.2 l ⟨x, q.flatMap advancedOps, ?_⟩ h2
    rw [h1, List.flatMap_append]
  have down : ∀ os : List Nat, ∀ l, l <:+: os.flatMap advancedOps → Op.reset ∉ l → ∃ p, p <+: os ∧ l.length ≤ counter 0 p := by
    intro os
    induction os using List.reverseRecOn with
    | nil => intro l h _; exact ⟨[], List.nil_prefix, by rw [List.infix_nil.1 h]; exact Nat.zero_le _⟩
    | append_singleton os a ih =>
      intro l hl hn
      by_cases hs : l <:+ (os ++ [a]).flatMap advancedOps
      · obtain ⟨_, -, -, -, h4⟩ := counter_suffix (os ++ [a])
        exact ⟨_, List.prefix_refl _, h4 l hs hn⟩
      · have key : l <:+: os.flatMap advancedOps ∨ ∃ p, p <+: os ++ [a] ∧ l.length ≤ counter 0 p := by
          obtain ⟨x, y, e⟩ := hl
          rw [List.flatMap_append, List.flatMap_singleton] at e hs
          by_cases hy : (advancedOps a).length ≤ y.length
          · refine .inl ?_
            have : advancedOps a <:+ y := List.suffix_of_suffix_length_le ⟨os.flatMap advancedOps, e.symm⟩ ⟨x ++ l, rfl⟩ hy
            obtain ⟨z, rfl⟩ := this
            rw [← List.append_assoc] at e
            exact ⟨x, z, List.append_cancel_right e⟩
          · -- the reset and the increment of the same action
            have hy0 : y ≠ [] := by
              rintro rfl
              exact hs ⟨x, by rw [← e, List.append_nil]⟩
            refine .inl ?_
            unfold advancedOps at hy e
            by_cases hr : a.testBit 1 = true <;> by_cases hi : a.testBit 0 = true
            · rw [if_pos hr, if_pos hi] at hy e
              have hy1 : y.length = 1 := by
                have := List.length_pos_iff.2 hy0
                simp at hy; omega
              obtain ⟨b, rfl⟩ := List.length_eq_one_iff.1 hy1
              have e' : x ++ l = os.flatMap (fun o => (if o.testBit 1 then [Op.reset] else []) ++ if o.testBit 0 then [.inc] else []) ++ [.reset] := by
                have : (x ++ l) ++ [b] = (os.flatMap (fun o => (if o.testBit 1 then [Op.reset] else []) ++ if o.testBit 0 then [.inc] else []) ++ [.reset]) ++ [.inc] := by
                  rw [e]; simp
                exact (List.append_inj' this rfl).1
              rcases List.eq_nil_or_concat l with rfl | ⟨l', b', rfl⟩
              · exact List.nil_infix
              · rw [List.concat_eq_append] at hn e'
                rw [← List.append_assoc] at e'
                have := (List.append_inj' e' rfl).2
                cases this
                exact absurd (by simp) hn
            · rw [if_pos hr, if_neg hi] at hy
              exact absurd (by simp at hy; exact hy) hy0
            · rw [if_neg hr, if_pos hi] at hy
              exact absurd (by simp at hy; exact hy) hy0
            · rw [if_neg hr, if_neg hi] at hy
              have := List.length_pos_iff.2 hy0
              simp at hy
        rcases key with hk | hk
        · obtain ⟨p, h1, h2⟩ := ih l hk hn
          exact ⟨p, h1.trans (List.prefix_append _ _), h2⟩
        · exact hk
  obtain ⟨l, h1, h2, h3⟩ := h.1
  obtain ⟨p, h4, h5⟩ := down os l h1 h2
  exact ⟨⟨p, h4, Nat.le_antisymm (up p h4) (h3 ▸ h5)⟩, up⟩

/-! ### The task along a text -/

/-- The state of the task after a text. -/
def Kind.after (k : Kind) (f : Fsm) (s : St) (t : List Nat) : St := t.foldl (fun s c => k.next f s (f.letters.representative c)) s

/-- The actions along a text. -/
def Kind.acts (k : Kind) (f : Fsm) : St → List Nat → List Nat
  | _, [] => []
  | s, c :: t => k.action f s (f.letters.representative c) :: k.acts f (k.next f s (f.letters.representative c)) t

theorem after_snoc (k : Kind) (f : Fsm) (s : St) (t : List Nat) (c : Nat) :
    k.after f s (t ++ [c]) = k.next f (k.after f s t) (f.letters.representative c) := by
  unfold Kind.after; rw [List.foldl_append]; rfl

theorem acts_snoc (k : Kind) (f : Fsm) (s : St) (t : List Nat) (c : Nat) :
    k.acts f s (t ++ [c]) = k.acts f s t ++ [k.action f (k.after f s t) (f.letters.representative c)] := by
  induction t generalizing s with
  | nil => rfl
  | cons x t ih => rw [List.cons_append, Kind.acts, Kind.acts, ih]; rfl

theorem acts_length (k : Kind) (f : Fsm) (s : St) (t : List Nat) : (k.acts f s t).length = t.length := by
  induction t generalizing s with
  | nil => rfl
  | cons x t ih => rw [Kind.acts, List.length_cons, ih]; rfl

/-- Prefixes of the actions are the actions along prefixes. -/
theorem acts_prefix (k : Kind) (f : Fsm) (s : St) (t p : List Nat) (h : p <+: k.acts f s t) : ∃ u, u <+: t ∧ p = k.acts f s u := by
  induction t using List.reverseRecOn with
  | nil => exact ⟨[], List.prefix_refl _, List.prefix_nil.1 h⟩
  | append_singleton t c ih =>
    rw [acts_snoc] at h
    rcases List.prefix_concat_iff.1 h with rfl | h
    · exact ⟨_, List.prefix_refl _, (acts_snoc ..).symm⟩
    · obtain ⟨u, h1, h2⟩ := ih h
      exact ⟨u, h1.trans (List.prefix_append _ _), h2⟩

theorem acts_of_prefix (k : Kind) (f : Fsm) (s : St) {t u : List Nat} (h : u <+: t) : k.acts f s u <+: k.acts f s t := by
  obtain ⟨v, rfl⟩ := h
  induction v using List.reverseRecOn with
  | nil => rw [List.append_nil]
  | append_singleton v c ih => rw [← List.append_assoc, acts_snoc]; exact ih.trans (List.prefix_append _ _)

/-! ### The machine -/

/-- The table as a machine over all letters. -/
def Table.machine (t : Table) (L : Partition) : Machine where
  n := t.fsm.size
  q0 := t.fsm.initial
  step := fun q c => t.fsm.firstDst q (L.representative c)
  out := fun q c => t.actions q (L.representative c)

theorem rep_class {L : Partition} (hl : L.WF) {e : PClass} (he : e ∈ L.set) {c : Nat} (hc : c ∈ e.members) : L.representative c = e.rep := by
  rw [Partition.representative, (hl.inv_iff _ _).2 ⟨e, he, rfl, hc⟩]; rfl

theorem class_of {L : Partition} (hl : L.WF) (ha : Multi.AllLetters L) {c : Nat} (hc : IsLetter c) :
    ∃ e ∈ L.set, L.representative c = e.rep ∧ c ∈ e.members := by
  obtain ⟨r, hr⟩ := Option.isSome_iff_exists.1 ((ha c).2 hc)
  obtain ⟨e, he, h1, h2⟩ := (hl.inv_iff _ _).1 hr
  exact ⟨e, he, rep_class hl he h2, h2⟩

theorem machine_outs {L : Partition} (hl : L.WF) (ha : Multi.AllLetters L) {t : Table} {k : Kind} {f : Fsm} (hf : f.letters = L)
    {rel : Nat → St → Prop} (h : Follows L t k f rel) {q : Nat} {s : St} (hq : q < t.fsm.size) (hs : rel q s) {w : List Nat} (hw : IsWord w) :
    (t.machine L).outs q w = k.acts f s w := by
  induction w generalizing q s with
  | nil => rfl
  | cons c w ih =>
    obtain ⟨e, he, h1, -⟩ := class_of hl ha (hw c List.mem_cons_self)
    obtain ⟨h2, h3⟩ := h.step q hq s hs e he
    rw [Machine.outs, Kind.acts, hf]
    show t.actions q (L.representative c) :: (t.machine L).outs (t.fsm.firstDst q (L.representative c)) w = _
    rw [h1, h3, ih (h.lt q hq e he) h2 fun x hx => hw x (List.mem_cons_of_mem _ hx)]

theorem fillTable_congr {remap : Nat → Nat} {base n q0 : Nat} {L : Partition} {a b a' b' : Nat → Nat → Nat}
    (h : ∀ q, ∀ e ∈ L.set, a q e.rep = a' q e.rep ∧ b q e.rep = b' q e.rep) : fillTable remap base n q0 L a b = fillTable remap base n q0 L a' b' := by
  unfold fillTable
  congr 1
  funext s q
  refine List.foldl_ext _ _ _ fun s e he => ?_
  obtain ⟨h1, h2⟩ := h q e he
  rw [h1, h2]

theorem machine_fillable {L : Partition} (hl : L.WF) (ha : Multi.AllLetters L) {t : Table} {k : Kind} {f : Fsm} {rel : Nat → St → Prop}
    (h : Follows L t k f rel) {base : Nat} (h1 : L.size ≤ 256) (h2 : t.fsm.size * (L.size * 8) ≤ 2 ^ 31) (h3 : base % 8 = 0) (h4 : base ≤ 2 ^ 63) :
    Fillable (t.machine L) L base := by
  refine ⟨hl, ha, h1, h2, h3, h4, h.init_lt, fun q hq c hc => ?_, fun q hq e he c hc => ?_⟩
  · obtain ⟨e, he, h5, -⟩ := class_of hl ha hc
    show t.fsm.firstDst q (L.representative c) < _
    rw [h5]; exact h.lt q hq e he
  · show t.fsm.firstDst q (L.representative c) = t.fsm.firstDst q (L.representative e.rep) ∧ t.actions q (L.representative c) = t.actions q (L.representative e.rep)
    rw [rep_class hl he hc, rep_class hl he (hl.rep_mem e he)]
    exact ⟨rfl, rfl⟩

theorem machine_fill {L : Partition} (hl : L.WF) (t : Table) (remap : Nat → Nat) (base : Nat) :
    fillTable remap base t.fsm.size t.fsm.initial L (fun q c => t.fsm.firstDst q c) t.actions =
      fillTable remap base (t.machine L).n (t.machine L).q0 L (t.machine L).step (t.machine L).out := by
  refine fillTable_congr fun q e he => ?_
  show t.fsm.firstDst q e.rep = t.fsm.firstDst q (L.representative e.rep) ∧ t.actions q e.rep = t.actions q (L.representative e.rep)
  rw [rep_class hl he (hl.rep_mem e he)]
  exact ⟨rfl, rfl⟩

/-- The table made by the constructor follows one of the two tasks. -/
theorem table_spec {re sep : Fsm} {t : Table} {L : Partition} (h : re.Good) (h2 : sep.Good) (ht : Untagged re) (hx : table re sep = some (t, L)) :
    ∃ A B f, Shape A B f ∧ A.Lang = re.Lang ∧ B.Lang = sep.Lang ∧ f.letters = L ∧
      ∃ rel, Follows L t (if t.simple then simple f A.initial else full f A.initial) f rel := by
  have hx' : ∃ f re0 t0, countingFsm re sep = some (f, re0) ∧ determine f re0 = some t0 ∧ minimize f.letters t0 = t ∧ f.letters = L := by
    unfold table at hx
    cases hc : countingFsm re sep with
    | none => rw [hc] at hx; cases hx
    | some x =>
      obtain ⟨f, re0⟩ := x
      rw [hc] at hx
      cases hd : determine f re0 with
      | none => simp [hd] at hx
      | some t0 =>
        simp [hd] at hx
        exact ⟨f, re0, t0, rfl, hd, hx.1, hx.2⟩
  obtain ⟨f, re0, t0, hc, hd, e1, e2⟩ := hx'
  subst e1 e2
  obtain ⟨A, B, S, e0, hA, hB⟩ := countingFsm_spec h h2 ht hc
  subst e0
  refine ⟨A, B, f, S, hA, hB, rfl, ?_⟩
  have hsimple : (minimize f.letters t0).simple = t0.simple := rfl
  rw [hsimple]
  have hf : ∃ rel, Follows f.letters t0 (if t0.simple then simple f A.initial else full f A.initial) f rel := by
    unfold determine at hd
    split at hd
    · rename_i r hr
      have hd := Option.some.inj hd
      subst hd
      have hs := (DTask.run_spec (t := (full f A.initial).task f) S.wf.let_wf _).1 _ _ hr
      exact ⟨_, accept_follows false hs⟩
    · obtain ⟨r, hr, rfl⟩ := Option.map_eq_some_iff.1 hd
      have hs := (DTask.run_spec (t := (simple f A.initial).task f) S.wf.let_wf _).1 _ _ hr
      exact ⟨_, accept_follows true hs⟩
  obtain ⟨rel, hf⟩ := hf
  obtain ⟨rel', hf'⟩ := minimize_follows S.wf.let_wf hf
  exact ⟨rel', hf'⟩

/-! ### Soundness along a text -/

theorem plain_letter {c : Nat} (h : Plain c) : IsLetter c := by
  rcases h with h | rfl | rfl
  · exact ⟨by omega, by omega⟩
  · exact ⟨by decide, by decide⟩
  · exact ⟨by decide, by decide⟩

theorem plain_valid {A B f : Fsm} (S : Shape A B f) {c : Nat} (h : Plain c) : invalidLetter f (f.letters.representative c) = false := by
  obtain ⟨e, he, h1, h2⟩ := rep_spec S (plain_letter h)
  rw [h1]
  unfold invalidLetter
  rw [Bool.eq_false_iff]
  intro hx
  obtain ⟨e', he', hx⟩ := List.any_eq_true.1 hx
  rw [Bool.and_eq_true, beq_iff_eq] at hx
  have := rep_inj S.wf.let_wf he' he hx.1
  subst this
  have := List.all_eq_true.1 hx.2 c h2
  have h3 : c < 260 ∧ c ≠ 256 := by rcases h with h | rfl | rfl <;> omega
  simp [h3.1, h3.2] at this

theorem inv_after {A B f : Fsm} (S : Shape A B f) (smp : Bool) {t : List Nat} (ht : ∀ c ∈ t, Plain c) :
    Inv A B (counter 0 ((if smp then simple f A.initial else full f A.initial).acts f (if smp then simple f A.initial else full f A.initial).initial t)) t
      ((if smp then simple f A.initial else full f A.initial).after f (if smp then simple f A.initial else full f A.initial).initial t) := by
  induction t using List.reverseRecOn with
  | nil =>
    cases smp
    · exact initial_full S
    · exact initial_simple
  | append_singleton t c ih =>
    have hc := ht c (by simp)
    rw [acts_snoc, counter_snoc, after_snoc]
    have := ih fun x hx => ht x (List.mem_append_left _ hx)
    cases smp
    · exact step_full S this (plain_letter hc) (plain_valid S hc)
    · exact step_simple S this (plain_letter hc) (plain_valid S hc)

/-- The counter never exceeds the length of a series in the text. -/
theorem counter_sound {A B f : Fsm} (S : Shape A B f) (smp : Bool) {t : List Nat} (ht : ∀ c ∈ t, Plain c) {k : Nat}
    (hk : MaxRun (((if smp then simple f A.initial else full f A.initial).acts f (if smp then simple f A.initial else full f A.initial).initial t).flatMap advancedOps) k) :
    HasSeries A.Lang B.Lang t k := by
  obtain ⟨⟨p, hp, rfl⟩, -⟩ := maxRun_counter hk
  obtain ⟨u, ⟨v, rfl⟩, rfl⟩ := acts_prefix _ _ _ _ _ hp
  have hi := inv_after S smp (t := u) fun c hc => ht c (List.mem_append_left _ hc)
  rcases hi.full with h | h
  · rw [h]; exact .inl rfl
  · obtain ⟨x, hx⟩ := Finset.nonempty_iff_ne_empty.2 h
    rcases (hi.unmatched x hx).has with h | ⟨w, hw, hs⟩
    · exact .inl h
    · exact .inr ⟨w, hw.trans (List.prefix_append _ _).isInfix, hs⟩

end Adv
end Count
end Pire
