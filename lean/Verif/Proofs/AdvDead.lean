import Verif.Proofs.AdvExact

/-! # Advanced counting scanners for separators that match nothing -/

namespace Pire
namespace Count
namespace Adv

open Spec Counting

variable {A B f : Fsm}

theorem run_has_sep (S : Shape A B f) {q r : Nat} {w : List Nat} (h : Run f.Edge q w r) (hr : r ∈ f.finals) :
    ((q < A.size ∨ q = top A B) → ∃ b, b ∈ B.Lang) ∧ (A.size ≤ q → q < top A B → ∀ u, Run B.Edge B.initial u (q - A.size) → ∃ b, b ∈ B.Lang) := by
  unfold top
  induction h with
  | refl q =>
    have hnil : B.initial ∈ B.finals → ∃ b, b ∈ B.Lang := fun h => ⟨[], B.initial, h, .refl _⟩
    refine ⟨fun hq => ?_, fun h1 h2 u hu => ?_⟩
    · rcases (S.finals q).1 hr with h | h | h
      · have := S.det.2.wf.fin_lt _ h.2
        omega
      · exact hnil h.1
      · exact hnil h.2.1
    · rcases (S.finals q).1 hr with h | h | h
      · exact ⟨u, _, h.2, hu⟩
      · exact hnil h.1
      · omega
  | eps he _ _ => exact absurd he (S.noeps _ _)
  | @step q c q' w r hc he _ ih =>
    obtain ⟨i1, i2⟩ := ih hr
    have hl : IsLetter c := ⟨(S.wf.edge_lt he).2.1, hc⟩
    rcases (S.edge _ _ _ hl).1 he with h | ⟨h1, h2, h3⟩ | ⟨h1, h2, h3⟩ | ⟨h1, h | h | ⟨-, h2, h3⟩⟩
    · obtain ⟨g1, -, g2⟩ := S.det.1.wf.edge_lt h
      exact ⟨fun _ => i1 (.inl g2), fun _ _ => by omega⟩
    · obtain ⟨g1, -, g2⟩ := S.det.2.wf.edge_lt h3
      exact ⟨fun _ => by omega, fun _ _ u hu => i2 h2 (by omega) (u ++ [c]) (hu.snoc hc h3)⟩
    · obtain ⟨g1, -, g2⟩ := S.det.2.wf.edge_lt h3
      exact ⟨fun _ => i2 h2 (by omega) [c] (.step hc h3 (.refl _)), fun _ _ => by have := S.det.1.wf.fin_lt _ h1; omega⟩
    · exact ⟨fun _ => i1 (.inr h), fun _ _ => by omega⟩
    · exact ⟨fun _ => i1 (.inl (S.det.1.wf.edge_lt h).2.2), fun _ _ => by omega⟩
    · obtain ⟨g1, -, g2⟩ := S.det.2.wf.edge_lt h3
      exact ⟨fun _ => i2 h2 (by omega) [c] (.step hc h3 (.refl _)), fun _ _ => by omega⟩

theorem all_dead (S : Shape A B f) (hs : ∀ v, v ∉ B.Lang) {q : Nat} (hq : q < f.size) : q ∈ f.deadStates := by
  refine (Fsm.mem_deadStates S.wf S.coh q).2 ⟨hq, ?_⟩
  by_contra hn
  rw [not_or, not_not, not_not] at hn
  obtain ⟨⟨u, hu⟩, w, r, hr, hw⟩ := hn
  obtain ⟨b, hb⟩ := (run_has_sep S (hu.trans hw) hr).1 (.inr S.initial)
  exact hs b hb

theorem tagged_dead {d : Finset Nat} {src : Nat} (h : ∀ q ∈ d, q ∈ f.deadStates) : tagged f d src = St.none := by
  have : d.filter (· ∉ f.deadStates) = ∅ := Finset.filter_eq_empty_iff.2 fun q hq => not_not.2 (h q hq)
  unfold tagged St.none
  rw [this]
  rfl

theorem split_dead (S : Shape A B f) (hs : ∀ v, v ∉ B.Lang) {c : Nat} (hc : IsLetter c) (re0 : Nat) (g : Group) :
    split f re0 (f.letters.representative c) g = St.none := by
  have h : ∀ q, ∀ p ∈ f.destinations q (f.letters.representative c), p ∈ f.deadStates := fun q p hp =>
    all_dead S hs (S.wf.edge_lt ((mem_destinations S hc).1 hp)).2.2
  have h1 : ∀ x, splitOne f re0 (f.letters.representative c) x = St.none := by
    intro x
    unfold splitOne
    rw [tagged_dead (h _), tagged_dead (h _)]
    dsimp only
    split <;> rfl
  unfold split
  simp only [h1]
  have e : (g.biUnion fun _ => (∅ : Group)) = ∅ := Finset.eq_empty_of_forall_notMem fun x hx => by
    obtain ⟨_, -, hx⟩ := Finset.mem_biUnion.1 hx
    exact Finset.notMem_empty x hx
  show (⟨g.biUnion fun _ => ∅, g.biUnion fun _ => ∅, g.biUnion fun _ => ∅, ∅⟩ : St) = _
  rw [e]
  rfl

theorem full_dead (S : Shape A B f) (hs : ∀ v, v ∉ B.Lang) {c : Nat} (hc : IsLetter c) (re0 : Nat) (s : St) :
    (full f re0).tag s ((full f re0).prepare s (f.letters.representative c)) = 2 := by
  unfold full
  dsimp only
  rw [split_dead S hs hc, split_dead S hs hc, split_dead S hs hc]
  simp [transitionTag, St.none, St.all]

theorem simple_dead (S : Shape A B f) (hs : ∀ v, v ∉ B.Lang) {c : Nat} (hc : IsLetter c) (re0 : Nat) (s : St) :
    (simple f re0).tag s ((simple f re0).prepare s (f.letters.representative c)) = 0 ∨ (simple f re0).tag s ((simple f re0).prepare s (f.letters.representative c)) = 2 := by
  have hp : (simple f re0).prepare s (f.letters.representative c) = St.none := by
    unfold simple
    dsimp only
    have h1 : ∀ g, simpleFirst f re0 (f.letters.representative c) g = St.none := by
      intro g
      unfold simpleFirst
      rw [split_dead S hs hc]
      simp [St.none]
    have h3 : ∀ d g, chooseDest f re0 d g (f.letters.representative c) = d := by
      intro d g
      unfold chooseDest
      rw [split_dead S hs hc]
      simp [St.none]
    have h2 : ∀ g, simpleSecond f re0 (f.letters.representative c) g St.none = St.none := by
      intro g
      unfold simpleSecond
      rw [split_dead S hs hc]
      simp [St.none, chooseSeparated]
    rw [h1, h2, h3]
    split
    · rfl
    · rfl
  rw [hp]
  unfold simple
  dsimp only
  have : transitionTag St.none = 2 := by simp [transitionTag, St.none]
  rw [this]
  split
  · exact .inl rfl
  · exact .inr rfl

theorem counter_dead (S : Shape A B f) (hs : ∀ v, v ∉ B.Lang) (smp : Bool) {t : List Nat} (ht : ∀ c ∈ t, Plain c) :
    counter 0 ((if smp then simple f A.initial else full f A.initial).acts f (if smp then simple f A.initial else full f A.initial).initial t) = 0 := by
  induction t using List.reverseRecOn with
  | nil => rfl
  | append_singleton t c ih =>
    rw [acts_snoc, counter_snoc, ih fun x hx => ht x (List.mem_append_left _ hx)]
    have hc := ht c (by simp)
    unfold Kind.action
    rw [plain_valid S hc, if_neg Bool.false_ne_true]
    cases smp
    · rw [if_neg Bool.false_ne_true, full_dead S hs (plain_letter hc)]; rfl
    · rw [if_pos rfl]
      rcases simple_dead S hs (plain_letter hc) A.initial ((simple f A.initial).after f (simple f A.initial).initial t) with h | h <;> rw [h] <;> rfl

end Adv
end Count
end Pire
