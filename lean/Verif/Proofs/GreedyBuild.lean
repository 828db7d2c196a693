import Verif.Proofs.GreedyDouble
import Verif.Proofs.Complement

/-!
# Greedy counters: the automaton built from the counting states
-/

namespace Pire
open Fsm Spec HalfFinal HalfFinal.Greedy
namespace Greedy

theorem next_congr {f : Fsm} {c r : Nat} (D : Nat) (h1 : ∀ q, f.destinations q r = f.destinations q c) (h2 : r = EndMark ↔ c = EndMark) (s : DSt) :
    next f D s r = next f D s c := by
  unfold next advance
  simp only [h1, h2]

/-- The automaton before the connections are added. -/
def accept0 (letters : Partition) (states : List DSt) : Fsm :=
  let g := Fsm.init.resize states.length
  states.zipIdx.foldl copyData { g with initial := 0, determined := true, letters := letters, finals := ∅ }

theorem copyData_fields (l : List (DSt × Nat)) (g : Fsm) :
    (l.foldl copyData g).tr = g.tr ∧ (l.foldl copyData g).size = g.size ∧ (l.foldl copyData g).initial = g.initial ∧
    (l.foldl copyData g).letters = g.letters ∧ (l.foldl copyData g).determined = g.determined ∧ (l.foldl copyData g).isAlt = g.isAlt ∧
    (∀ q, q ∈ (l.foldl copyData g).finals ↔ q ∈ g.finals ∨ ∃ s, (s, q) ∈ l ∧ s.toAdd ≠ 0) := by
  induction l generalizing g with
  | nil => simp
  | cons x l ih =>
    rw [List.foldl_cons]
    obtain ⟨i1, i2, i3, i4, i5, i6, i7⟩ := ih (copyData g x)
    rw [i1, i2, i3, i4, i5, i6]
    have hf : ∀ q, q ∈ (copyData g x).finals ↔ q ∈ g.finals ∨ (q = x.2 ∧ x.1.toAdd ≠ 0) := by
      intro q
      unfold copyData
      split
      · rename_i h
        simp [setFinal, h]
        tauto
      · rename_i h; simp at h; simp [h]
    refine ⟨?_, ?_, ?_, ?_, ?_, ?_, fun q => ?_⟩
    iterate 6 (unfold copyData; split <;> rfl)
    rw [i7, hf]
    constructor
    · rintro ((h | ⟨rfl, h⟩) | ⟨s, h1, h2⟩)
      · exact Or.inl h
      · exact Or.inr ⟨x.1, List.mem_cons_self, h⟩
      · exact Or.inr ⟨s, List.mem_cons_of_mem _ h1, h2⟩
    · rintro (h | ⟨s, h1, h2⟩)
      · exact Or.inl (Or.inl h)
      · rcases List.mem_cons.1 h1 with rfl | h1
        · exact Or.inl (Or.inr ⟨rfl, h2⟩)
        · exact Or.inr ⟨s, h1, h2⟩

theorem copyData_tags (l : List DSt) (k : Nat) (g : Fsm) (q : Nat) (h0 : g.tags q = none) :
    ((l.zipIdx k).foldl copyData g).tags q = if k ≤ q then (l[q - k]?).bind (fun s => if s.toAdd ≠ 0 then some s.toAdd else none) else none := by
  have out : ∀ (l : List DSt) (k : Nat) (g : Fsm), q < k → ((l.zipIdx k).foldl copyData g).tags q = g.tags q := by
    intro l
    induction l with
    | nil => intros; rfl
    | cons s l ih =>
      intro k g hk
      rw [List.zipIdx_cons, List.foldl_cons, ih _ _ (by omega)]
      unfold copyData
      split
      · show Function.update _ _ _ _ = _
        rw [Function.update_of_ne (by omega)]
      · rfl
  induction l generalizing k g with
  | nil => simp [h0]
  | cons s l ih =>
    by_cases hk : k ≤ q
    · rw [if_pos hk, List.zipIdx_cons, List.foldl_cons]
      by_cases hq : q = k
      · subst hq
        rw [out _ _ _ (by omega), Nat.sub_self]
        unfold copyData
        simp only [List.getElem?_cons_zero, Option.bind_some]
        split
        · show Function.update _ _ _ _ = _
          rw [Function.update_self]
        · exact h0
      · rw [ih (k + 1), if_pos (by omega), show q - k = (q - (k + 1)) + 1 by omega, List.getElem?_cons_succ]
        unfold copyData
        split
        · show Function.update _ _ _ _ = _
          rw [Function.update_of_ne hq]
          exact h0
        · exact h0
    · rw [if_neg hk, out _ _ _ (by omega), h0]

/-- What is built from the counting states of the doubled automaton `d`. -/
structure Built (d : Fsm) (D : Nat) (g : Fsm) : Prop where
  det : g.Det
  size : g.size ≤ 200001
  letters : g.letters = d.letters
  isAlt : g.isAlt = false
  state : ∀ u q, IsWord u → Run g.Edge g.initial u q →
    (q ∈ g.finals ↔ (after d D u).toAdd ≠ 0) ∧ g.tags q = if (after d D u).toAdd ≠ 0 then some (after d D u).toAdd else none
  reach : ∀ q < g.size, ∃ u, IsWord u ∧ Run g.Edge g.initial u q

theorem accept_fields (letters : Partition) (states : List DSt) (conns : List (Nat × Nat × Nat)) :
    (accept letters states conns).size = states.length ∧ (accept letters states conns).initial = 0 ∧
    (accept letters states conns).letters = letters ∧ (accept letters states conns).determined = true ∧
    (accept letters states conns).isAlt = false ∧
    (∀ k, k ∈ (accept letters states conns).finals ↔ ∃ s, states[k]? = some s ∧ s.toAdd ≠ 0) ∧
    (∀ k, (accept letters states conns).tags k = (states[k]?).bind (fun s => if s.toAdd ≠ 0 then some s.toAdd else none)) ∧
    (∀ x c y, y ∈ (accept letters states conns).dst x c ↔ (x, y, c) ∈ conns) ∧
    (∀ x c, (accept letters states conns).tr x c ≠ none → ∃ y, (x, y, c) ∈ conns) := by
  have hacc : accept letters states conns = (accept0 letters states).connectAll conns := rfl
  obtain ⟨c1, c2, c3, c4, c5, c6, c7⟩ := copyData_fields states.zipIdx
    { (Fsm.init.resize states.length) with initial := 0, determined := true, letters := letters, finals := ∅ }
  have gen : ∀ (l) (g : Fsm), g.isAlt = false → (g.connectAll l).isAlt = false := by
    intro l g hg
    cases l with
    | nil => exact hg
    | cons t l => exact connectAll_isAlt _ _ (by simp)
  rw [hacc]
  have htr : ∀ x c, (accept0 letters states).tr x c = none := by
    intro x c
    show (states.zipIdx.foldl copyData _).tr x c = none
    rw [c1]; simp [init, resize]
  refine ⟨?_, ?_, ?_, ?_, ?_, ?_, ?_, ?_, ?_⟩
  · rw [connectAll_size]; exact c2
  · rw [connectAll_initial]; exact c3
  · rw [connectAll_letters]; exact c4
  · rw [Fsm.connectAll_determined]; exact c5
  · exact gen _ _ (c6.trans rfl)
  · intro k
    rw [connectAll_finals]
    show k ∈ (states.zipIdx.foldl copyData _).finals ↔ _
    rw [c7]
    simp only [List.mem_zipIdx_iff_getElem?]
    simp
  · intro k
    rw [connectAll_tags]
    show (states.zipIdx.foldl copyData _).tags k = _
    rw [copyData_tags states 0 _ k rfl, if_pos (Nat.zero_le _), Nat.sub_zero]
  · intro x c y
    rw [mem_dst_connectAll, dst, htr]
    simp
  · intro x c h
    have h' := Option.isSome_iff_ne_none.2 h
    rw [tr_connectAll_isSome, htr] at h'
    rcases h' with h' | h'
    · cases h'
    · exact h'

theorem accept_spec {f d : Fsm} (hD : Doubled f d) {D : Nat} {states : List DSt} {conns : List (Nat × Nat × Nat)}
    (hr : (task d D).RunSpec 200000 states conns) : Built d D (accept d.letters states conns) := by
  obtain ⟨b1, b2, b3, b4, b5, b6, b7, b8, b9⟩ := accept_fields d.letters states conns
  generalize accept d.letters states conns = g at *
  have hrow : ∀ k s, states[k]? = some s → ∀ e ∈ d.letters.set, ∃ p, g.dst k e.rep = {p} ∧ states[p]? = some (next d D s e.rep) := by
    intro k s hk e he
    have hm : next d D s e.rep ∈ states := by
      rw [hr.mem]
      exact .step ((hr.mem s).1 (List.mem_of_getElem? hk)) rfl he
    obtain ⟨p, hp⟩ := List.mem_iff_getElem?.1 hm
    refine ⟨p, ?_, hp⟩
    ext y
    rw [b8, hr.conns, Finset.mem_singleton]
    constructor
    · rintro ⟨s', h1, -, -, h2⟩
      rw [hk] at h1
      cases h1
      have hy := (List.getElem?_eq_some_iff.1 h2)
      have hp' := (List.getElem?_eq_some_iff.1 hp)
      exact (List.Nodup.getElem_inj_iff hr.nodup).1 (hy.2.trans hp'.2.symm)
    · rintro rfl
      exact ⟨s, hk, rfl, ⟨e, he, rfl⟩, hp⟩
  have hkey : ∀ q c y, (q, y, c) ∈ conns → q < states.length ∧ y < states.length ∧ ∃ e ∈ d.letters.set, e.rep = c := by
    intro q c y h
    obtain ⟨s, h1, -, h2, h3⟩ := (hr.conns _ _ _).1 h
    exact ⟨(List.getElem?_eq_some_iff.1 h1).1, (List.getElem?_eq_some_iff.1 h3).1, h2⟩
  have hself : ∀ e ∈ d.letters.set, d.letters.inv e.rep = some e.rep := fun e he => hD.let_wf.inv_of_mem he (hD.let_wf.rep_mem e he)
  have hlt : ∀ c r, d.letters.inv c = some r → c < 264 ∧ c ≠ 257 := fun c r h => (hD.all c).1 (by rw [h]; rfl)
  have hwf : g.WF := by
    refine ⟨?_, ?_, ?_, by rw [b3]; exact hD.let_wf, by rw [b3]; exact hlt⟩
    · rw [b1, b2]; exact (List.getElem?_eq_some_iff.1 hr.zero).1
    · intro q hq
      obtain ⟨s, hs, -⟩ := (b6 q).1 hq
      rw [b1]; exact (List.getElem?_eq_some_iff.1 hs).1
    · intro q c T hT
      obtain ⟨y, hy⟩ := b9 q c (by rw [hT]; simp)
      obtain ⟨h1, -, e, he, rfl⟩ := hkey q c y hy
      rw [b1]
      refine ⟨h1, (hlt _ _ (hself e he)).1, fun z hz => ?_⟩
      have : z ∈ g.dst q e.rep := by rw [dst, hT]; exact hz
      exact (hkey _ _ _ ((b8 _ _ _).1 this)).2.1
  have hdet : g.Det := by
    refine ⟨hwf, b4, fun c => by rw [b3]; exact hD.all c, ?_, ?_⟩
    · intro q hq e he
      rw [b1] at hq; rw [b3] at he
      obtain ⟨p, hp, -⟩ := hrow q _ (List.getElem?_eq_getElem hq) e he
      exact ⟨p, by rw [tr_eq_some_dst (p := p) (by rw [hp]; simp), hp]⟩
    · intro q c hc
      obtain ⟨y, hy⟩ := b9 q c hc
      obtain ⟨-, -, e, he, rfl⟩ := hkey q c y hy
      rw [b3]; exact hself e he
  have hedge : ∀ q s, states[q]? = some s → ∀ c, IsLetter c → ∃ p, g.Edge q c p ∧ states[p]? = some (next d D s c) := by
    intro q s hs c hc
    obtain ⟨r, hrr⟩ := Option.isSome_iff_exists.1 ((hD.all c).2 hc)
    obtain ⟨e, he, rfl, hm⟩ := (hD.let_wf.inv_iff _ _).1 hrr
    obtain ⟨p, hp, hp'⟩ := hrow q s hs e he
    refine ⟨p, (edge_of_class hwf (by rw [b3]; exact he) hm q p).2 (by rw [hp]; simp), ?_⟩
    rw [hp', next_congr D (hD.rep c _ hrr).1 (hD.rep c _ hrr).2]
  have hrun : ∀ u : List Nat, IsWord u → ∃ q, Run g.Edge g.initial u q ∧ states[q]? = some (after d D u) := by
    intro u
    induction u using List.reverseRecOn with
    | nil => intro _; exact ⟨0, by rw [b2]; exact .refl _, hr.zero⟩
    | append_singleton u c ih =>
      intro hu
      have hc : IsLetter c := hu c (by simp)
      obtain ⟨q, h1, h2⟩ := ih fun x hx => hu x (by simp [hx])
      obtain ⟨p, h3, h4⟩ := hedge q _ h2 c hc
      exact ⟨p, h1.snoc hc.2 h3, by rw [after_snoc]; exact h4⟩
  refine ⟨hdet, by rw [b1]; exact hr.len, b3, b5, ?_, ?_⟩
  · intro u q hu hq
    obtain ⟨p, h1, h2⟩ := hrun u hu
    rw [hdet.run_unique hq h1, b6, b7, h2]
    simp
  · intro q hq
    rw [b1] at hq
    have : ∀ s, (task d D).Reach s → ∃ u, IsWord u ∧ after d D u = s := by
      intro s hs
      induction hs with
      | init => exact ⟨[], (by intro _ h; cases h), rfl⟩
      | @step s e _ _ he ih =>
        obtain ⟨u, h1, h2⟩ := ih
        have hl : IsLetter e.rep := (hD.all _).1 (by rw [hself e he]; rfl)
        refine ⟨u ++ [e.rep], ?_, by rw [after_snoc, h2]; rfl⟩
        intro x hx
        rcases List.mem_append.1 hx with hx | hx
        · exact h1 x hx
        · rw [List.mem_singleton] at hx; rw [hx]; exact hl
    obtain ⟨u, h1, h2⟩ := this states[q] ((hr.mem _).1 (List.getElem_mem hq))
    obtain ⟨p, h3, h4⟩ := hrun u h1
    have hq' : states[q]? = some (after d D u) := by rw [h2]; exact List.getElem?_eq_getElem hq
    have e1 := List.getElem?_eq_some_iff.1 hq'
    have e2 := List.getElem?_eq_some_iff.1 h4
    have : p = q := (List.Nodup.getElem_inj_iff hr.nodup).1 (e2.2.trans e1.2.symm)
    exact ⟨u, h1, this ▸ h3⟩

end Greedy
end Pire
