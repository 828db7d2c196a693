import Verif.Proofs.CaptureFlat
import Verif.Proofs.CaptureFresh

/-!
# The automata of repeated bytes (C60)
-/

namespace Pire
namespace Capture
open Spec Pire.Lex Pire.Enc Pire.Parse

variable {f g : Fsm} {bs : Finset Nat}

theorem union_plain (h : f.WF) (hc : f.Coh) (h2 : g.WF) (hc2 : g.Coh) (a1 : f.isAlt = false) (a2 : g.isAlt = false) :
    (f.union g).WF ∧ (f.union g).Raw ∧ (f.union g).size = f.size + g.size + 1 ∧ (f.union g).initial = f.size + g.size ∧
    (∀ x, x ∈ (f.union g).finals ↔ x ∈ f.finals ∨ (f.size ≤ x ∧ x - f.size ∈ g.finals)) ∧
    (∀ q c p, (f.union g).Edge q c p ↔ f.Edge q c p ∨ (f.size ≤ q ∧ f.size ≤ p ∧ g.Edge (q - f.size) c (p - f.size)) ∨
      (q = f.size + g.size ∧ c = 257 ∧ (p = f.initial ∨ p = f.size + g.initial))) ∧ (f.union g).outputs = (f.import_ g).outputs := by
  obtain ⟨bw, braw, bsize, binit, bfin, bE⟩ := Fsm.unionBase_spec h hc h2 hc2
  obtain ⟨b, hb⟩ : ∃ b, b = Fsm.unionBase f g := ⟨_, rfl⟩
  rw [← hb] at bw braw bsize binit bfin bE
  have bout : b.outputs = (f.import_ g).outputs := by rw [hb]; rfl
  have hi := h.init_lt
  have hi2 := h2.init_lt
  unfold Fsm.union
  simp only [a1, a2, Bool.not_false, Bool.and_self, if_true]
  change Fsm.WF { ((((Fsm.unionBase f g).resize ((Fsm.unionBase f g).size + 1)).connect ((Fsm.unionBase f g).size + 1 - 1) (Fsm.unionBase f g).initial Epsilon).connect
      ((Fsm.unionBase f g).size + 1 - 1) (f.size + g.initial) Epsilon) with
      initial := (Fsm.unionBase f g).size + 1 - 1, determined := false, isAlt := true } ∧
    Fsm.Raw { ((((Fsm.unionBase f g).resize ((Fsm.unionBase f g).size + 1)).connect ((Fsm.unionBase f g).size + 1 - 1) (Fsm.unionBase f g).initial Epsilon).connect
      ((Fsm.unionBase f g).size + 1 - 1) (f.size + g.initial) Epsilon) with
      initial := (Fsm.unionBase f g).size + 1 - 1, determined := false, isAlt := true } ∧
    (Fsm.unionBase f g).size + 1 = _ ∧ (Fsm.unionBase f g).size + 1 - 1 = _ ∧ (∀ x, x ∈ (Fsm.unionBase f g).finals ↔ _) ∧
    (∀ q c p, (((((Fsm.unionBase f g).resize ((Fsm.unionBase f g).size + 1)).connect ((Fsm.unionBase f g).size + 1 - 1) (Fsm.unionBase f g).initial Epsilon).connect
      ((Fsm.unionBase f g).size + 1 - 1) (f.size + g.initial) Epsilon)).Edge q c p ↔ _) ∧ (Fsm.unionBase f g).outputs = _
  rw [← hb]
  have e1 : (b.resize (b.size + 1)).Edge = b.Edge := Fsm.edge_congr (bw.resize_tr (by omega)) rfl
  have e257 : Epsilon = 257 := rfl
  have w : (((b.resize (b.size + 1)).connect (b.size + 1 - 1) b.initial Epsilon).connect (b.size + 1 - 1) (f.size + g.initial) Epsilon).WF := by
    refine (((bw.resize (by omega)).connect ?_ ?_ ?_).connect ?_ ?_ ?_) <;> (try simp) <;> omega
  refine ⟨w.congr rfl ?_ w.fin_lt rfl rfl, braw, by omega, by omega, bfin, fun q c p => ?_, bout⟩
  · change b.size + 1 - 1 < b.size + 1; omega
  · have r2 : ((b.resize (b.size + 1)).connect (b.size + 1 - 1) b.initial Epsilon).Raw := braw
    have r1 : (b.resize (b.size + 1)).Raw := braw
    rw [Fsm.edge_connect, Fsm.edge_connect, e1, bE, Fsm.key_raw r2, Fsm.key_raw r1, binit, bsize]
    have e3 : Epsilon = 257 := rfl
    rw [e3]
    constructor
    · rintro ((he | ⟨h3, h4, h5⟩) | ⟨h3, h4, h5⟩)
      · exact he.imp_right .inl
      · exact .inr (.inr ⟨by omega, h5, .inl h4⟩)
      · exact .inr (.inr ⟨by omega, h5, .inr h4⟩)
    · rintro (he | he | ⟨h3, h4, h5 | h5⟩)
      · exact .inl (.inl (.inl he))
      · exact .inl (.inl (.inr he))
      · exact .inl (.inr ⟨by omega, h5, h4⟩)
      · exact .inr ⟨by omega, h5, h4⟩

/-- The automaton of one byte. -/
structure Byte (f : Fsm) (bs : Finset Nat) : Prop where
  wf : f.WF
  raw : f.Raw
  size : f.size = 2
  init : f.initial = 0
  fin : f.finals = {1}
  outputs : f.outputs = fun _ => none
  edge : ∀ q c p, f.Edge q c p ↔ q = 0 ∧ p = 1 ∧ c ∈ bs
  alt : f.isAlt = false

theorem no_edge_init {q c p : Nat} : ¬ Fsm.init.Edge q c p := fun he => by
  have := (Fsm.edge_iff).1 he
  simp [Fsm.dst, Fsm.init] at this

theorem Grown.byte (h : Grown Fsm.init f bs) : Byte f bs := by
  refine ⟨h.wf, h.raw, h.size, h.init, h.fin, h.outputs, fun q c p => ?_, h.alt rfl⟩
  rw [h.edge]
  constructor
  · rintro (he | ⟨h1, h2, h3⟩)
    · exact absurd he no_edge_init
    · exact ⟨by simpa [Fsm.init] using h1, h2, h3⟩
  · rintro ⟨rfl, rfl, h3⟩
    exact .inr ⟨by simp [Fsm.init], rfl, h3⟩

theorem Byte.outIn (h : Byte f bs) : OutIn f := fun q p v hv => by rw [h.outputs] at hv; simp at hv
theorem Byte.output (h : Byte f bs) (q p : Nat) : f.output q p = 0 := by unfold Fsm.output; rw [h.outputs]; rfl

theorem mark_eq (lz : Bool) (it : Item) (h : it.lazy = lz) : mark it = if !lz then 4 else 8 := by
  unfold mark; rw [h]; cases lz <;> rfl

theorem not_mem_eps (hb : ∀ c ∈ bs, c < 256) {c : Nat} (h : c = 257) : c ∉ bs := fun hc => by have := hb c hc; omega

theorem chain_star (h : Byte f bs) (hb : ∀ c ∈ bs, c < 256) (lz : Bool) : Chain (setRepetitionMark f.iterate (!lz)) 4 0 [.item ⟨bs, 0, none, lz⟩] := by
  have hw := h.wf.iterate
  obtain ⟨r1, r2, r3, r4, r5, rE, rO⟩ := setRepetitionMark_spec hw (!lz)
  have hoi : OutIn f.iterate := h.outIn.mono (iterate_outputs f) (by rw [Fsm.iterate_size]; omega)
  rw [Fsm.iterate_size, h.size] at r2 r4 rE rO
  rw [Fsm.iterate_initial, h.size] at r3
  rw [Fsm.iterate_letters] at r5
  simp only [Fsm.iterate_edge h.wf, h.edge, h.init, h.size, h.fin, Fsm.iterate_finals, Finset.mem_singleton] at rE
  have out : f.iterate.output = f.output := funext fun q => funext fun p => output_congr (iterate_outputs f) ..
  simp only [out, h.output, Fsm.iterate_finals, h.size, Finset.mem_singleton] at rO
  refine ⟨r1, r5.trans h.raw, repetition_out hw hoi _, r4, fun c p => ?_, ?_⟩
  · rw [rE]; omega
  · rw [r3]
    have hin : ∀ q, q < 4 → Inner (setRepetitionMark f.iterate (!lz)) 4 q := fun q hq => ⟨by omega, by omega⟩
    have lead : Leads (setRepetitionMark f.iterate (!lz)).Edge (setRepetitionMark f.iterate (!lz)).output (Inner (setRepetitionMark f.iterate (!lz)) 4) 4 3 4 (mark ⟨bs, 0, none, lz⟩) := by
      refine ⟨le_rfl, ⟨hin 3 (by omega), fun c p => ?_⟩, ?_⟩
      · rw [rE]; omega
      · rw [rO, if_pos (by omega), mark_eq lz _ rfl]
    have fork : ∀ q, q = 1 ∨ q = 2 → Forks (setRepetitionMark f.iterate (!lz)).Edge (setRepetitionMark f.iterate (!lz)).output (Inner (setRepetitionMark f.iterate (!lz)) 4) 0 q 0 3 := by
      intro q hq
      refine ⟨le_rfl, by omega, ⟨hin q (by omega), fun c p => ?_⟩, ?_, ?_⟩
      · rw [rE]; omega
      · rw [rO, if_neg (by omega)]
      · rw [rO, if_neg (by omega)]
    have read : ReadsOn (setRepetitionMark f.iterate (!lz)).Edge (setRepetitionMark f.iterate (!lz)).output (Inner (setRepetitionMark f.iterate (!lz)) 4) 0 bs 1 := by
      refine ⟨⟨hin 0 (by omega), fun c p => ?_⟩, fun _ => ?_⟩
      · rw [rE]
        constructor
        · rintro ((⟨-, h1, h2⟩ | h1) | h1)
          · exact ⟨h2, h1⟩
          · omega
          · omega
        · rintro ⟨h1, h2⟩
          exact .inl (.inl ⟨rfl, h2, h1⟩)
      · rw [rO, if_neg (by omega)]
    refine ⟨⟨Nat.zero_le _, nofun, hb⟩, ?_⟩
    rw [if_pos rfl]
    exact ⟨0, 3, fork 2 (.inr rfl), ⟨1, read, 0, 3, 1, fork 1 (.inl rfl), by omega, by omega, read, fork 1 (.inl rfl), by omega, by omega, 4, lead, le_rfl, rfl⟩, 4, lead, le_rfl, rfl⟩

theorem chain_plus (h : Byte f bs) (hb : ∀ c ∈ bs, c < 256) (lz : Bool) : Chain (setRepetitionMark (f.concat f.iterate) (!lz)) 6 0 [.item ⟨bs, 1, none, lz⟩] := by
  have hiw := h.wf.iterate
  have hir : f.iterate.Raw := (Fsm.iterate_letters f).trans h.raw
  have hio : OutIn f.iterate := h.outIn.mono (iterate_outputs f) (by rw [Fsm.iterate_size]; omega)
  obtain ⟨c1, c2, c3, c4, c5, hw⟩ := Fsm.concat_spec h.wf h.raw.coh hiw hir.coh
  have hoi := (concat_out h.wf hiw h.outIn hio c1).1
  have co := concat_output h.wf h.outIn hio
  obtain ⟨r1, r2, r3, r4, r5, rE, rO⟩ := setRepetitionMark_spec hw (!lz)
  have out : f.iterate.output = f.output := funext fun q => funext fun p => output_congr (iterate_outputs f) ..
  simp only [out, h.output, ite_self] at co
  simp only [Fsm.iterate_size, Fsm.iterate_finals, Fsm.iterate_initial, Fsm.iterate_edge h.wf, h.edge, h.size, h.init, h.fin, Finset.mem_singleton] at c1 c2 c4 c5
  have cF : ∀ x, x ∈ (f.concat f.iterate).finals ↔ x = 5 := fun x => by rw [c4]; omega
  have cE : ∀ q c p, (f.concat f.iterate).Edge q c p ↔ (c ∈ bs ∧ (q = 0 ∧ p = 1 ∨ q = 2 ∧ p = 3)) ∨ (c = 257 ∧ (q = 1 ∨ q = 3 ∨ q = 4) ∧ (p = 2 ∨ p = 5)) := by
    intro q c p
    rw [c5]
    by_cases hc : c ∈ bs
    · have := hb c hc
      simp only [hc, and_true, true_and]
      omega
    · simp only [hc, and_false, false_and, false_or, true_and]
      omega
  clear c5 c4
  simp only [c1, c2, cF, cE, co] at r2 r3 r4 rE rO
  refine ⟨r1, r5.trans c3, repetition_out hw hoi _, r4, fun c p => ?_, ?_⟩
  · rw [rE]; omega
  · rw [r3]
    obtain ⟨g, hg⟩ : ∃ g, g = setRepetitionMark (f.concat f.iterate) (!lz) := ⟨_, rfl⟩
    rw [← hg] at r1 r2 r3 r4 r5 rE rO ⊢
    have hin : ∀ q, q < 6 → Inner g 6 q := fun q hq => ⟨by omega, by omega⟩
    have lead : Leads g.Edge g.output (Inner g 6) 6 5 6 (mark ⟨bs, 1, none, lz⟩) := by
      refine ⟨le_rfl, ⟨hin 5 (by omega), fun c p => ?_⟩, ?_⟩
      · rw [rE]; omega
      · rw [rO, if_pos (by omega), mark_eq lz _ rfl]
    have fork : ∀ q, q = 1 ∨ q = 3 → Forks g.Edge g.output (Inner g 6) 0 q 2 5 := by
      intro q hq
      refine ⟨by omega, by omega, ⟨hin q (by omega), fun c p => ?_⟩, ?_, ?_⟩
      · rw [rE]
        constructor
        · rintro ((⟨h1, h2⟩ | h1) | h1) <;> omega
        · rintro ⟨h1, h2⟩
          exact .inl (.inr ⟨h1, by omega, h2⟩)
      · rw [rO, if_neg (by omega)]
      · rw [rO, if_neg (by omega)]
    have read : ∀ q, q = 0 ∨ q = 2 → ReadsOn g.Edge g.output (Inner g 6) q bs (q + 1) := by
      intro q hq
      refine ⟨⟨hin q (by omega), fun c p => ?_⟩, fun _ => ?_⟩
      · rw [rE]
        constructor
        · rintro ((⟨h1, h2⟩ | h1) | h1)
          · exact ⟨h1, by omega⟩
          · omega
          · omega
        · rintro ⟨h1, h2⟩
          exact .inl (.inl ⟨h1, by omega⟩)
      · rw [rO, if_neg (by omega)]
    refine ⟨⟨le_rfl, nofun, hb⟩, ?_⟩
    rw [if_neg (by simp)]
    exact ⟨1, read 0 (.inl rfl), 2, 5, 3, fork 1 (.inl rfl), by omega, by omega, read 2 (.inr rfl), fork 3 (.inr rfl), by omega, by omega, 6, lead, le_rfl, rfl⟩

theorem chain_opt (h : Byte f bs) (hb : ∀ c ∈ bs, c < 256) (lz : Bool) : Chain (setRepetitionMark (f.union Fsm.init) (!lz)) 4 0 [.item ⟨bs, 0, some 1, lz⟩] := by
  have hni : OutIn Fsm.init := chain_init.out
  obtain ⟨hw, u2, u3, u4, u5, u6, u7⟩ := union_plain h.wf h.raw.coh chain_init.wf chain_init.raw.coh h.alt rfl
  have uo : ∀ q p, (f.union Fsm.init).output q p = 0 := by
    intro q p
    rw [output_congr u7]
    unfold Fsm.output
    rw [import_stored h.outIn hni, h.outputs]
    split
    · rfl
    · split <;> rfl
  have hoi : OutIn (f.union Fsm.init) := by
    intro q p v hv
    rw [u7, import_stored h.outIn hni, h.outputs] at hv
    split at hv
    · simp at hv
    · split at hv <;> simp [Fsm.init] at hv
  obtain ⟨r1, r2, r3, r4, r5, rE, rO⟩ := setRepetitionMark_spec hw (!lz)
  have i1 : Fsm.init.size = 1 := rfl
  have i2 : Fsm.init.initial = 0 := rfl
  have i3 : Fsm.init.finals = {0} := rfl
  simp only [i1, i2, i3, h.edge, h.size, h.init, h.fin, Finset.mem_singleton, no_edge_init, and_false, false_or] at u3 u4 u5 u6
  simp only [u3, u4, u5, u6, uo] at r2 r3 r4 rE rO
  obtain ⟨g, hg⟩ : ∃ g, g = setRepetitionMark (f.union Fsm.init) (!lz) := ⟨_, rfl⟩
  have ro := repetition_out hw hoi (!lz)
  have rr := r5.trans u2
  rw [← hg] at r1 r2 r3 r4 rE rO ro rr ⊢
  refine ⟨r1, rr, ro, r4, fun c p => ?_, ?_⟩
  · rw [rE]; omega
  · rw [r3]
    have hin : ∀ q, q < 4 → Inner g 4 q := fun q hq => ⟨by omega, by omega⟩
    have lead : ∀ q, q = 1 ∨ q = 2 → Leads g.Edge g.output (Inner g 4) (q + 1) q 4 (mark ⟨bs, 0, some 1, lz⟩) := by
      intro q hq
      refine ⟨by omega, ⟨hin q (by omega), fun c p => ?_⟩, ?_⟩
      · rw [rE]; omega
      · rw [rO, if_pos (by omega), mark_eq lz _ rfl]
    refine ⟨⟨Nat.zero_le _, fun h hh => by simpa using hh.symm, hb⟩, ?_⟩
    rw [if_pos rfl]
    refine ⟨0, 2, ⟨le_rfl, by omega, ⟨hin 3 (by omega), fun c p => ?_⟩, ?_, ?_⟩, ⟨1, ⟨⟨hin 0 (by omega), fun c p => ?_⟩, fun _ => ?_⟩, ?_⟩, 4, lead 2 (.inr rfl), le_rfl, rfl⟩
    · rw [rE]; omega
    · rw [rO, if_neg (by omega)]
    · rw [rO, if_neg (by omega)]
    · rw [rE]
      by_cases hc : c ∈ bs
      · have := hb c hc
        simp only [hc, and_true, true_and]
        omega
      · simp only [hc, and_false, false_and, false_or, iff_false]
        omega
    · rw [rO, if_neg (by omega)]
    · unfold After
      dsimp only
      rw [if_pos rfl]
      exact ⟨4, lead 1 (.inl rfl), le_rfl, rfl⟩

end Capture
end Pire
