import Verif.Props.CaptureGroup
import Verif.Proofs.CaptureSurround

/-!
# C59: the captured group is in the leftmost occurrence

For patterns without `^`, `$`, `&`, `~` in which no greedy repetition can be passed before a letter is read (`Alt.skips`); for others it need not be
(`C59_skips_witness`).
-/

namespace Pire
namespace Props

open Spec Lex Parse Enc Unidata Loaded Capture

variable {o : Options} {e : Encoding} {s : List Nat} {k : Nat} {t : Alt} {f g : Fsm}

theorem Searches.fresh (h : Searches o e s k t f g) {lz : List Bool} (hp : CPattern o.flavor s t.spell lz) (hm : t.markless = true) (hk : t.skips lz = false) : Fresh f := by
  have hc : t.counts ≤ lz.length := by rw [← cpattern_counts hp, Alt.spell_counts]
  have h1 := evalAlt_fresh e t h.ok h.simple hm (Fields.start k) rfl lz hc hk
  have h2 := h.parsed
  unfold parseCapture at h2
  rw [C58_tokens hp, ok_bind] at h2
  dsimp only at h2
  rw [(parse_iff (ts := t.spell) (a := t)).2 rfl] at h2
  dsimp only at h2
  cases hr : evalAlt e t (Fields.start k, lz) with
  | ok r =>
    rw [hr] at h1 h2
    cases h2
    exact h1
  | throws => rw [hr] at h2; cases h2
  | bad => rw [hr] at h2; cases h2

theorem surround_around (h : f.WF) : Around f f.surround.Edge := by
  intro q c p
  rw [surround_edge h, Fsm.prependAnything_edge h, Fsm.prependAnything_size, Fsm.prependAnything_finals]
  tauto

/-- Where the group is in a run through the pattern that begins at `i`. -/
theorem bracketed_since {L : Language Nat} {l : List (Nat × Nat)} (hB : Bracketed L l) (i : Nat) :
    ∃ b c, firstWith 0 (trace i l) = some b ∧ firstWith 1 (trace i l) = some c ∧ i ≤ b ∧ b ≤ c ∧ c ≤ i + (Capture.letters l).length ∧
      ((Capture.letters l).drop (b - i)).take (c - b) ∈ L := by
  obtain ⟨l₁, m, l₂, rfl, hm, s1, s2⟩ := hB
  refine ⟨i + (Capture.letters l₁).length, i + (Capture.letters l₁).length + (Capture.letters m).length, ?_, ?_, by omega, by omega, ?_, ?_⟩
  · rw [List.append_assoc, List.cons_append, firstWith_trace 0 l₁ 257 1 _ (fun x hx => (s1 x hx).1) rfl]; rfl
  · rw [firstWith_trace 1 (l₁ ++ (257, 1) :: m) 257 2 l₂ ?_ rfl]
    · simp [Nat.add_assoc]
    · intro x hx
      rcases List.mem_append.1 hx with hx | hx
      · exact (s1 x hx).2
      · rcases List.mem_cons.1 hx with rfl | hx
        · rfl
        · exact (s2 x hx).2
  · simp; omega
  · rw [Nat.add_sub_cancel_left, Nat.add_sub_cancel_left]
    simp only [letters_append, letters_eps, List.append_assoc]
    rw [List.drop_left, List.take_left]
    exact hm

theorem take_since (w : List Nat) {i p q n : Nat} (h1 : i ≤ p) (h2 : p ≤ q) (h3 : q ≤ i + n) :
    (((w.drop i).take n).drop (p - i)).take (q - p) = (w.drop p).take (q - p) := by
  rw [List.drop_take, List.drop_drop, List.take_take, Nat.add_sub_cancel' h1, Nat.min_eq_left (by omega)]

/-- Something is found if the pattern occurs, and what is captured is in an occurrence that begins at the leftmost place: `w[i, j)` is that occurrence, and the
text from `Begin()` to `End()` is in it. -/
theorem C59_leftmost (h : Searches o e s k t f f.surround) {lz : List Bool} (hp : CPattern o.flavor s t.spell lz) (hm : t.markless = true) (hk : t.skips lz = false)
    {w : List Nat} (hw : ∀ c ∈ w, c < 256) (hl : w.length < npos) {v : List Nat} (hv : v ∈ t.den (codec e)) (hvw : v <:+: w) :
    ∃ st b x i j, (slowCompile f.surround).run w = some st ∧ (slowCompile f.surround).getCapture st = some (b, some x) ∧
      i ≤ j ∧ j ≤ w.length ∧ (w.drop i).take (j - i) ∈ t.den (codec e) ∧
      (∀ i' j', i' ≤ j' → j' ≤ w.length → (w.drop i').take (j' - i') ∈ t.den (codec e) → i ≤ i') ∧
      ((opt x.beg = none ∧ opt x.fin = none ∧ t.must k = false) ∨
        ∃ a p q, t.nth k = some a ∧ b = true ∧ opt x.beg = some p ∧ opt x.fin = some q ∧ i ≤ p ∧ p ≤ q ∧ q ≤ j ∧ (w.drop p).take (q - p) ∈ a.den (codec e)) := by
  obtain ⟨⟨h1, h2, -⟩, hraw, hM⟩ := h.whole
  have hwf := h1.wf
  have hF := h.fresh hp hm hk
  have hA := surround_around hwf
  have hready := h.ready
  have hWord : IsWord w := fun c hc => ⟨by have := hw c hc; omega, by have := hw c hc; omega⟩
  obtain ⟨J, Fn, hT, hE, hst, hFn⟩ := slowCompile_repr (f := f.surround) (d := 0) hready.wf hready.small hready.raw hready.tags hready.outs
  have hT : TRepr (slowCompile f.surround) f.surround.size J Fn := hT
  have hE : Edges f.surround.size J f.surround.Edge f.surround.output := hE
  have hst : (slowCompile f.surround).start = f.surround.initial := hst
  have hFn : ∀ q < f.surround.size, Fn q = true ↔ q ∈ f.surround.finals := hFn
  have hsz : f.surround.size = f.size + 2 := by unfold Fsm.surround; rw [Fsm.appendAnything_size, Fsm.prependAnything_size]
  have hini : f.surround.initial = f.size := by unfold Fsm.surround; rw [Fsm.appendAnything_initial, Fsm.prependAnything_initial]
  have hfin : f.surround.finals = {f.size + 1} := by unfold Fsm.surround; rw [Fsm.appendAnything_finals, Fsm.prependAnything_size]
  have hout : f.surround.output = f.output := by funext q p; exact output_congr (surround_outputs f) q p
  obtain ⟨st, r, hrun, hget, -, -, -, h4⟩ := slow_capture hready hWord hl
  rw [hout, hsz] at hE
  rw [hsz] at hT hFn
  rw [hini] at hst
  rw [hfin] at hFn
  obtain ⟨E, hEe⟩ : ∃ E, E = f.surround.Edge := ⟨_, rfl⟩
  rw [← hEe] at hE hA
  obtain ⟨tb, htb⟩ : ∃ tb, tb = slowCompile f.surround := ⟨_, rfl⟩
  rw [← htb] at hT hst hrun hget ⊢
  clear hEe htb hini hfin hsz hout hready
  obtain ⟨In, R, Pre, i1, i2, i3, i4⟩ := hM.lab
  have hB : BytesOnly f.Lang := by rw [h2]; exact Alt.bytes e t h.ok h.simple hm
  have hFn' : ∀ q < f.size + 2, Fn q = true ↔ q = f.size + 1 := fun q hq => by rw [hFn q hq, Finset.mem_singleton]
  have hS := surrounded hA hwf hM.out hF hE hFn' ((i4 rfl).2.2.imp_right And.right) hB
  obtain ⟨st', hrun', hord⟩ := ordered_run hS hE hT hst w hw hl
  obtain rfl : st = st' := by rw [hrun] at hrun'; injection hrun'
  -- an occurrence is a run to the last state
  have occ : ∀ i j, i ≤ j → j ≤ w.length → (w.drop i).take (j - i) ∈ t.den (codec e) → Run E f.initial (w.drop i) (f.size + 1) := by
    intro i j hij hj hmem
    rw [← h2] at hmem
    obtain ⟨p, hp, hr⟩ := hmem
    have h5 : Run E p [] (f.size + 1) := .eps ((hA _ _ _).2 (.inr (.inr (.inr (.inr ⟨hp, rfl, rfl⟩))))) (.refl _)
    have loops : ∀ a : List Nat, IsWord a → Run E (f.size + 1) a (f.size + 1) := by
      intro a
      induction a with
      | nil => intro _; exact .refl _
      | cons c a ih =>
        intro ha
        have hc := ha c (by simp)
        exact .step hc.2 (hS.last c hc.1) (ih fun d hd => ha d (by simp [hd]))
    have h6 := (hr.mono hA.mono).trans (h5.trans (loops ((w.drop i).drop (j - i)) fun c hc => hWord c (List.mem_of_mem_drop (List.mem_of_mem_drop hc))))
    rwa [List.nil_append, List.take_append_drop] at h6
  obtain ⟨i0, j0, hij0, hj0, hocc0⟩ : ∃ i j, i ≤ j ∧ j ≤ w.length ∧ (w.drop i).take (j - i) ∈ t.den (codec e) := by
    obtain ⟨a, b, rfl⟩ := hvw
    refine ⟨a.length, a.length + v.length, by omega, by simp, ?_⟩
    rw [Nat.add_sub_cancel_left, List.append_assoc, List.drop_left, List.take_left]
    exact hv
  obtain ⟨b, x, i, hg, hN, hi, ⟨l, hl1, hl2, hl3, hl4⟩, hmin⟩ := ordered_capture hS hT hw (.inl ((hFn' _ (by omega)).2 rfl)) hord (a := i0) (by omega) (occ i0 j0 hij0 hj0 hocc0)
  rw [hN] at hl1
  rcases hA.split hwf hl1 hwf.init_lt with ⟨hx, -⟩ | ⟨-, l₁, l₂, p, hll, hl5, hpf, hl6⟩
  · omega
  have z1 : f.output p (f.size + 1) = 0 := hM.out.zero (by omega)
  have z2 : f.output (f.size + 1) (f.size + 1) = 0 := hM.out.zero (by omega)
  rw [z1] at hll
  rw [z2] at hl6
  have hlen : (Capture.letters l₁).length ≤ w.length - i := by
    have := congrArg List.length hl2
    rw [hll, List.length_drop] at this
    simp at this; omega
  have hpre : Capture.letters l₁ = (w.drop i).take (Capture.letters l₁).length := by
    rw [← hl2, hll, letters_append, List.take_left]
  have rest : ∀ bit k, firstWith bit (trace k ((257, 0) :: l₂)) = none := by
    intro bit k
    refine firstWith_none bit _ (fun y hy => ?_) k
    rcases List.mem_cons.1 hy with rfl | hy
    · exact Nat.zero_testBit bit
    · rw [hl6 y hy]; exact Nat.zero_testBit bit
  have whole : ∀ bit, firstWith bit (trace i l) = firstWith bit (trace i l₁) := by
    intro bit
    rw [hll, trace_append]
    unfold firstWith at rest ⊢
    rw [List.find?_append]
    have := rest bit (i + (Capture.letters l₁).length)
    rw [Option.map_eq_none_iff] at this
    rw [this, Option.or_none]
  refine ⟨st, b, x, i, i + (Capture.letters l₁).length, hrun, hg, by omega, by omega, ?_, ?_, ?_⟩
  · rw [Nat.add_sub_cancel_left, ← hpre, ← h2]
    exact ⟨p, hpf, hl5.run⟩
  · intro i' j' h7 h8 h9
    exact hmin i' (by omega) (occ i' j' h7 h8 h9)
  · rw [whole] at hl3 hl4
    have pass : Bracketed (((t.nth k).map fun b => b.den (codec e)).getD 0) l₁ → ∃ a p q, t.nth k = some a ∧ b = true ∧ opt x.beg = some p ∧ opt x.fin = some q ∧ i ≤ p ∧ p ≤ q ∧
        q ≤ i + (Capture.letters l₁).length ∧ (w.drop p).take (q - p) ∈ a.den (codec e) := by
      intro hBr
      obtain ⟨p', q', b1, b2, b3, b4, b5, b6⟩ := bracketed_since hBr i
      cases hn : t.nth k with
      | none => rw [hn] at b6; exact absurd b6 (Language.notMem_zero _)
      | some a =>
        rw [hn] at b6
        refine ⟨a, p', q', rfl, ?_, hl3.trans b1, hl4.trans b2, b3, b4, b5, ?_⟩
        · have hr : r = (b, some x) := Option.some.inj (hget.symm.trans hg)
          cases hb : b with
          | true => rfl
          | false =>
            have := h4 x (by rw [hr, hb])
            rw [hl3, b1] at this; cases this
        · rw [hpre, take_since w b3 b4 b5] at b6
          exact b6
    cases hmu : t.must k with
    | true =>
      exact .inr (pass (i1.through hl5 (i3 hmu) hpf))
    | false =>
      rcases i1.outside hl5 i1.init (i1.fin p hpf) with hq | hBr
      · refine .inl ⟨?_, ?_, rfl⟩
        · rw [hl3]; exact firstWith_none 0 l₁ (fun y hy => (hq y hy).1) i
        · rw [hl4]; exact firstWith_none 1 l₁ (fun y hy => (hq y hy).2) i
      · exact .inr (pass hBr)

end Props
end Pire
