import Verif.Proofs.CaptureContext
import Verif.Proofs.FsmMore
import Verif.Proofs.Good

/-!
# Where the capture group is in an automaton

`In` are the states of the group, `R` says what may still be read in the group, `Pre` are states from which the group has to be passed.
-/

namespace Pire
namespace Capture
open Spec

/-- The states of an automaton with a group whose texts are in `L`. -/
structure Lab (L : Language Nat) (g : Fsm) (In : Nat → Prop) (R : Nat → Language Nat) (Pre : Nat → Prop) : Prop where
  out : OutIn g
  inl : ∀ q, In q → q < g.size
  init : ¬ In g.initial
  fin : ∀ q ∈ g.finals, ¬ In q
  silent : ∀ q p, ¬ In q → ¬ In p → Silent (g.output q p)
  enter : ∀ q c p, g.Edge q c p → ¬ In q → In p → c = 257 ∧ g.output q p = 1 ∧ R p ≤ L
  stay : ∀ q c p, g.Edge q c p → In q → In p → Silent (g.output q p) ∧ (c = 257 → R p ≤ R q) ∧ (c ≠ 257 → ∀ u ∈ R p, c :: u ∈ R q)
  leave : ∀ q c p, g.Edge q c p → In q → ¬ In p → c = 257 ∧ g.output q p = 2 ∧ [] ∈ R q
  alt : g.isAlt = true → ∀ c p, g.Edge g.initial c p → ¬ In p
  prel : ∀ q, Pre q → q < g.size
  pre_out : ∀ q, Pre q → ¬ In q
  pre_fin : ∀ q, Pre q → q ∉ g.finals
  pre_edge : ∀ q c p, Pre q → g.Edge q c p → Pre p ∨ In p

variable {L : Language Nat} {f g : Fsm} {In In' : Nat → Prop} {R R' : Nat → Language Nat} {Pre Pre' : Nat → Prop}

/-- Without a group. -/
theorem Lab.quiet (ho : OutIn f) (hs : ∀ q p, Silent (f.output q p)) : Lab L f (fun _ => False) (fun _ => 0) fun _ => False :=
  ⟨ho, nofun, id, fun _ _ => id, fun q p _ _ => hs q p, fun _ _ _ _ _ h => h.elim, fun _ _ _ _ h => h.elim, fun _ _ _ _ h => h.elim,
    fun _ _ _ _ => id, nofun, nofun, nofun, nofun⟩

theorem Lab.noPre (h : Lab L f In R Pre) : Lab L f In R fun _ => False :=
  ⟨h.out, h.inl, h.init, h.fin, h.silent, h.enter, h.stay, h.leave, h.alt, nofun, nofun, nofun, nofun⟩

/-- What the group reads until it is left. -/
theorem Lab.inside (h : Lab L f In R Pre) {q p : Nat} {l : List (Nat × Nat)} (hs : Steps f.Edge f.output q l p) (hq : In q) (hp : ¬ In p) :
    ∃ m r l₂, l = m ++ (257, 2) :: l₂ ∧ letters m ∈ R q ∧ (∀ x ∈ m, Silent x.2) ∧ ¬ In r ∧ Steps f.Edge f.output r l₂ p := by
  induction hs with
  | nil q => exact absurd hq hp
  | @cons q c p l r he hst ih =>
    by_cases hp' : In p
    · obtain ⟨h1, h2, h3⟩ := h.stay q c p he hq hp'
      obtain ⟨m, r', l₂, rfl, i1, i2, i3⟩ := ih hp' hp
      refine ⟨(c, f.output q p) :: m, r', l₂, rfl, ?_, ?_, i3⟩
      · by_cases hc : c = 257
        · subst hc; rw [letters_eps]; exact h2 rfl i1
        · rw [letters_cons hc]; exact h3 hc _ i1
      · intro x hx
        rcases List.mem_cons.1 hx with rfl | hx
        · exact h1
        · exact i2 x hx
    · obtain ⟨rfl, h2, h3⟩ := h.leave q c p he hq hp'
      exact ⟨[], p, l, by rw [h2]; rfl, h3, by simp, hp', hst⟩

/-- A run begins the capture, reads a word of `L`, and ends the capture. -/
def Bracketed (L : Language Nat) (l : List (Nat × Nat)) : Prop := ∃ l₁ m l₂, l = l₁ ++ (257, 1) :: m ++ (257, 2) :: l₂ ∧ letters m ∈ L ∧
    (∀ x ∈ l₁, Silent x.2) ∧ ∀ x ∈ m, Silent x.2

/-- A run from outside of the group to outside of it. -/
theorem Lab.outside (h : Lab L f In R Pre) {q p : Nat} {l : List (Nat × Nat)} (hs : Steps f.Edge f.output q l p) (hq : ¬ In q) (hp : ¬ In p) :
    (∀ x ∈ l, Silent x.2) ∨ Bracketed L l := by
  induction hs with
  | nil q => exact .inl (by simp)
  | @cons q c p l r he hst ih =>
    by_cases hp' : In p
    · obtain ⟨rfl, h2, h3⟩ := h.enter q c p he hq hp'
      obtain ⟨m, r', l₂, rfl, i1, i2, i3⟩ := h.inside hst hp' hp
      exact .inr ⟨[], m, l₂, by rw [h2]; rfl, h3 i1, by simp, i2⟩
    · have h1 := h.silent q p hq hp'
      rcases ih hp' hp with i | ⟨l₁, m, l₂, rfl, i1, i2, i3⟩
      · refine .inl fun x hx => ?_
        rcases List.mem_cons.1 hx with rfl | hx
        · exact h1
        · exact i x hx
      · refine .inr ⟨(c, f.output q p) :: l₁, m, l₂, rfl, i1, ?_, i3⟩
        intro x hx
        rcases List.mem_cons.1 hx with rfl | hx
        · exact h1
        · exact i2 x hx

/-- A run that has to pass the group. -/
theorem Lab.through (h : Lab L f In R Pre) {q p : Nat} {l : List (Nat × Nat)} (hs : Steps f.Edge f.output q l p) (hq : Pre q) (hp : p ∈ f.finals) :
    Bracketed L l := by
  induction hs with
  | nil q => exact absurd hp (h.pre_fin q hq)
  | @cons q c p l r he hst ih =>
    have hq' := h.pre_out q hq
    rcases h.pre_edge q c p hq he with hp' | hp'
    · obtain ⟨l₁, m, l₂, rfl, i1, i2, i3⟩ := ih hp' hp
      refine ⟨(c, f.output q p) :: l₁, m, l₂, rfl, i1, ?_, i3⟩
      intro x hx
      rcases List.mem_cons.1 hx with rfl | hx
      · exact h.silent q p hq' (h.pre_out p hp')
      · exact i2 x hx
    · obtain ⟨rfl, h2, h3⟩ := h.enter q c p he hq' hp'
      obtain ⟨m, r', l₂, rfl, i1, i2, i3⟩ := h.inside hst hp' (h.fin _ hp)
      exact ⟨[], m, l₂, by rw [h2]; rfl, h3 i1, by simp, i2⟩

/-! ### The group itself -/

theorem Lab.mark (h : f.WF) (ho : OutIn f) (hs : ∀ q p, Silent (f.output q p)) :
    Lab f.Lang (setCaptureMark f) (fun q => q < f.size) (fun q => f.LangFrom q) fun q => q = f.size := by
  obtain ⟨-, hsz, hi, hf, -, -, -, -, he, hout⟩ := setCaptureMark_spec h
  have hil := h.init_lt
  have hfl := h.fin_lt
  have edge : ∀ {q c p}, (setCaptureMark f).Edge q c p → (q < f.size ∧ p < f.size ∧ f.Edge q c p) ∨ (q = f.size ∧ c = 257 ∧ p = f.initial) ∨
      (q ∈ f.finals ∧ c = 257 ∧ p = f.size + 1) := by
    intro q c p hx
    rcases (he _ _ _).1 hx with hx | hx | hx
    · exact .inl ⟨(h.edge_lt hx).1, (h.edge_lt hx).2.2, hx⟩
    · exact .inr (.inl hx)
    · exact .inr (.inr hx)
  refine ⟨mark_out h ho, fun q hq => by rw [hsz]; omega, by rw [hi]; omega, ?_, ?_, ?_, ?_, ?_, ?_, ?_, ?_, ?_, ?_⟩
  · intro q hq; rw [hf, Finset.mem_singleton] at hq; omega
  · intro q p hq hp
    rw [hout, if_neg (by rintro ⟨h1, -⟩; exact hq (hfl q h1)), if_neg (by omega)]
    exact hs q p
  · intro q c p hx hq hp
    rcases edge hx with ⟨h1, -⟩ | ⟨rfl, rfl, rfl⟩ | ⟨-, -, h1⟩
    · exact absurd h1 hq
    · refine ⟨rfl, ?_, le_rfl⟩
      rw [hout, if_neg (by omega), if_pos ⟨rfl, rfl⟩]
    · omega
  · intro q c p hx hq hp
    rcases edge hx with ⟨-, -, h1⟩ | ⟨h1, -⟩ | ⟨-, -, h1⟩
    · refine ⟨?_, ?_, ?_⟩
      · rw [hout, if_neg (by omega), if_neg (by omega)]; exact hs q p
      · rintro rfl u ⟨r, hr, hu⟩; exact ⟨r, hr, .eps h1 hu⟩
      · rintro hc u ⟨r, hr, hu⟩; exact ⟨r, hr, .step hc h1 hu⟩
    · omega
    · omega
  · intro q c p hx hq hp
    rcases edge hx with ⟨-, h1, -⟩ | ⟨h1, -⟩ | ⟨h1, rfl, rfl⟩
    · exact absurd h1 hp
    · omega
    · refine ⟨rfl, ?_, q, h1, .refl q⟩
      rw [hout, if_pos ⟨h1, rfl⟩]
  · intro ha
    exfalso
    unfold setCaptureMark at ha
    dsimp only at ha
    obtain ⟨o, e, -⟩ := markFinals_spec (setOutput (((f.resize (f.size + 2)).connect f.size f.initial Epsilon).connectFinal (f.size + 1) Epsilon) f.size
      ((((f.resize (f.size + 2)).connect f.size f.initial Epsilon).connectFinal (f.size + 1) Epsilon)).initial 1) (f.size + 1) 2
    rw [e] at ha
    have : ((((f.resize (f.size + 2)).connect f.size f.initial Epsilon).connectFinal (f.size + 1) Epsilon)).isAlt = true := ha
    rw [Fsm.connectFinal_isAlt] at this
    cases this
  · intro q hq; rw [hsz]; omega
  · intro q hq; omega
  · intro q hq hq'; rw [hf, Finset.mem_singleton] at hq'; omega
  · intro q c p hq hx
    rcases edge hx with ⟨h1, -⟩ | ⟨-, -, rfl⟩ | ⟨h1, -⟩
    · omega
    · exact .inr hil
    · have := hfl q h1; omega

/-! ### Operations that leave the group alone -/

/-- New states, new edges from final states and new states to new states and the initial one. -/
theorem Lab.extend (h : Lab L f In R Pre) (hw : f.WF) (hsz : f.size ≤ g.size) (hout : ∀ q p, g.output q p = f.output q p ∨ Silent (g.output q p) ∧
      (q ∈ f.finals ∨ f.size ≤ q) ∧ f.size ≤ p) (hoi : OutIn g)
    (hE : ∀ q c p, g.Edge q c p → f.Edge q c p ∨ ((q ∈ f.finals ∨ f.size ≤ q) ∧ (p = f.initial ∨ f.size ≤ p)))
    (hi : g.initial = f.initial ∨ f.size ≤ g.initial) (hf : ∀ q ∈ g.finals, q ∈ f.finals ∨ f.size ≤ q)
    (ha : g.isAlt = false) (h1 : ∀ q, Pre' q → q < g.size) (h2 : ∀ q, Pre' q → ¬ In q) (h3 : ∀ q, Pre' q → q ∉ g.finals)
    (h4 : ∀ q c p, Pre' q → g.Edge q c p → Pre' p ∨ In p) : Lab L g In R Pre' := by
  have hin : ∀ q, In q → q < f.size ∧ q ≠ f.initial ∧ q ∉ f.finals := fun q hq =>
    ⟨h.inl q hq, fun e => h.init (e ▸ hq), fun e => h.fin q e hq⟩
  have old : ∀ q c p, g.Edge q c p → In q ∨ In p → f.Edge q c p ∧ g.output q p = f.output q p := by
    intro q c p he hqp
    have e1 : f.Edge q c p := by
      rcases hE q c p he with he | ⟨h5, h6⟩
      · exact he
      · exfalso
        rcases hqp with hq | hq
        · obtain ⟨a, b, d⟩ := hin q hq
          rcases h5 with h5 | h5
          · exact d h5
          · omega
        · obtain ⟨a, b, d⟩ := hin p hq
          rcases h6 with h6 | h6
          · exact b h6
          · omega
    refine ⟨e1, ?_⟩
    have := (hw.edge_lt e1).2.2
    rcases hout q p with h | ⟨-, -, h⟩
    · exact h
    · omega
  refine ⟨hoi, fun q hq => (h.inl q hq).trans_le hsz, ?_, ?_, ?_, ?_, ?_, ?_, fun hx => (by rw [ha] at hx; cases hx), h1, h2, h3, h4⟩
  · intro hq
    rcases hi with hi | hi
    · exact h.init (hi ▸ hq)
    · have := (hin _ hq).1; omega
  · intro q hq hq'
    rcases hf q hq with hf | hf
    · exact h.fin q hf hq'
    · have := (hin _ hq').1; omega
  · intro q p hq hp
    rcases hout q p with ho | ⟨ho, -⟩
    · rw [ho]; exact h.silent q p hq hp
    · exact ho
  · intro q c p he hq hp
    obtain ⟨e1, e2⟩ := old q c p he (.inr hp)
    rw [e2]; exact h.enter q c p e1 hq hp
  · intro q c p he hq hp
    obtain ⟨e1, e2⟩ := old q c p he (.inr hp)
    rw [e2]; exact h.stay q c p e1 hq hp
  · intro q c p he hq hp
    obtain ⟨e1, e2⟩ := old q c p he (.inl hq)
    rw [e2]; exact h.leave q c p e1 hq hp

theorem OutIn.mono (h : OutIn f) (ho : g.outputs = f.outputs) (hs : f.size ≤ g.size) : OutIn g := by
  intro q p v hv
  rw [ho] at hv
  have := h q p v hv
  omega

theorem output_congr (ho : g.outputs = f.outputs) (q p : Nat) : g.output q p = f.output q p := by
  unfold Fsm.output; rw [ho]

/-- Something is appended to the final states. -/
theorem Lab.append (h : Lab L f In R Pre) (hw : f.WF) (hsz : f.size ≤ g.size) (hout : g.outputs = f.outputs)
    (hE : ∀ q c p, g.Edge q c p → f.Edge q c p ∨ ((q ∈ f.finals ∨ f.size ≤ q) ∧ f.size ≤ p))
    (hi : g.initial = f.initial) (hf : ∀ q ∈ g.finals, f.size ≤ q) (ha : g.isAlt = false) : Lab L g In R Pre := by
  refine h.extend hw hsz (fun q p => .inl (output_congr hout q p)) (h.out.mono hout hsz) (fun q c p he => (hE q c p he).imp_right fun x => ⟨x.1, .inr x.2⟩)
    (.inl hi) (fun q hq => .inr (hf q hq)) ha (fun q hq => (h.prel q hq).trans_le hsz) h.pre_out ?_ ?_
  · intro q hq hq'
    have := h.prel q hq
    have := hf q hq'
    omega
  · intro q c p hq he
    rcases hE q c p he with he | ⟨h1 | h1, -⟩
    · exact h.pre_edge q c p hq he
    · exact absurd h1 (h.pre_fin q hq)
    · have := h.prel q hq; omega

theorem setRepetitionMark_isAlt (f : Fsm) (b : Bool) : (setRepetitionMark f b).isAlt = false := by
  unfold setRepetitionMark
  dsimp only
  obtain ⟨o, e, -⟩ := markFinals_spec ((f.resize (f.size + 1)).connectFinal f.size Epsilon) f.size (if b then 4 else 8)
  rw [e]
  rfl

theorem repetition_out (hw : f.WF) (ho : OutIn f) (b : Bool) : OutIn (setRepetitionMark f b) := by
  obtain ⟨-, hs, -⟩ := setRepetitionMark_spec hw b
  obtain ⟨g, hg⟩ : ∃ g, g = ((f.resize (f.size + 1)).connectFinal f.size Epsilon) := ⟨_, rfl⟩
  have gs : g.size = f.size + 1 := by rw [hg, Fsm.connectFinal_size]; rfl
  have gf : g.finals = f.finals := by rw [hg, Fsm.connectFinal_finals]; rfl
  have go : g.outputs = f.outputs := by rw [hg]; unfold Fsm.connectFinal; exact (Fsm.connectAll_outputs _ _)
  have h1 : OutIn g := ho.mono go (by omega)
  have h2 := h1.markFinals (p := f.size) (by intro q hq; rw [gf] at hq; have := hw.fin_lt q hq; omega) (by omega) (if b then 4 else 8)
  have hdef : setRepetitionMark f b = notDetermined (((markFinals g f.size (if b then 4 else 8)).clearFinal).setFinal f.size true) := by
    rw [hg]; rfl
  rw [hdef]
  exact h2

theorem Lab.repetition (h : Lab L f In R Pre) (hw : f.WF) (b : Bool) : Lab L (setRepetitionMark f b) In R Pre := by
  obtain ⟨-, hs, hi, hf, -, he, ho⟩ := setRepetitionMark_spec hw b
  refine h.extend hw (by omega) ?_ (repetition_out hw h.out b) ?_ (.inl hi) ?_ (setRepetitionMark_isAlt f b) (fun q hq => by have := h.prel q hq; omega) h.pre_out ?_ ?_
  · intro q p
    rw [ho]
    split
    · next hx =>
      refine .inr ⟨?_, .inl hx.1, by omega⟩
      cases b <;> exact ⟨by decide, by decide⟩
    · exact .inl rfl
  · intro q c p hx
    rcases (he q c p).1 hx with hx | ⟨h1, -, h2⟩
    · exact .inl hx
    · exact .inr ⟨.inl h1, .inr (by omega)⟩
  · intro q hq; rw [hf, Finset.mem_singleton] at hq; exact .inr (by omega)
  · intro q hq hq'
    rw [hf, Finset.mem_singleton] at hq'
    have := h.prel q hq; omega
  · intro q c p hq hx
    rcases (he q c p).1 hx with hx | ⟨h1, -⟩
    · exact h.pre_edge q c p hq hx
    · exact absurd h1 (h.pre_fin q hq)

theorem Lab.iterate (h : Lab L f In R Pre) (hw : f.WF) : Lab L f.iterate In R fun _ => False := by
  have ho : f.iterate.outputs = f.outputs := by
    simp [Fsm.iterate, Fsm.setFinal, Fsm.clearFinal, Fsm.resize, Fsm.connectFinal, Fsm.clearHints]
  refine h.extend hw (by rw [Fsm.iterate_size]; omega) (fun q p => .inl (output_congr ho q p)) (h.out.mono ho (by rw [Fsm.iterate_size]; omega)) ?_
    (.inr (by rw [Fsm.iterate_initial])) ?_ ?_ nofun nofun nofun nofun
  · intro q c p hx
    rcases (Fsm.iterate_edge hw q c p).1 hx with hx | ⟨-, ⟨h1, h2⟩ | ⟨h1, h2⟩ | ⟨h1, h2⟩ | ⟨h1, h2⟩⟩
    · exact .inl hx
    · exact .inr ⟨.inr (by omega), .inr (by omega)⟩
    · exact .inr ⟨.inr (by omega), .inl h2⟩
    · exact .inr ⟨.inl h1, .inl h2⟩
    · exact .inr ⟨.inl h1, .inr (by omega)⟩
  · intro q hq; rw [Fsm.iterate_finals, Finset.mem_singleton] at hq; exact .inr (by omega)
  · rfl

theorem Lab.prepend (h : Lab L f In R Pre) (hw : f.WF) : Lab L f.prependAnything In R fun q => Pre q ∨ (Pre f.initial ∧ q = f.size) := by
  have ho : f.prependAnything.outputs = f.outputs := by simp [Fsm.prependAnything, Fsm.resize]
  have hsz := Fsm.prependAnything_size (f := f)
  refine h.extend hw (by omega) (fun q p => .inl (output_congr ho q p)) (h.out.mono ho (by omega)) ?_
    (.inr (by rw [Fsm.prependAnything_initial])) ?_ ?_ ?_ ?_ ?_ ?_
  · intro q c p hx
    rcases (Fsm.prependAnything_edge hw q c p).1 hx with hx | ⟨h1, h2, -⟩ | ⟨h1, h2, -⟩
    · exact .inl hx
    · exact .inr ⟨.inr (by omega), .inr (by omega)⟩
    · exact .inr ⟨.inr (by omega), .inl h2⟩
  · intro q hq; rw [Fsm.prependAnything_finals] at hq; exact .inl hq
  · rfl
  · rintro q (hq | ⟨-, rfl⟩)
    · have := h.prel q hq; omega
    · omega
  · rintro q (hq | ⟨-, rfl⟩)
    · exact h.pre_out q hq
    · intro hx; have := h.inl _ hx; omega
  · rintro q hq hq'
    rw [Fsm.prependAnything_finals] at hq'
    rcases hq with hq | ⟨-, rfl⟩
    · exact h.pre_fin q hq hq'
    · have := hw.fin_lt _ hq'; omega
  · intro q c p hq hx
    rcases (Fsm.prependAnything_edge hw q c p).1 hx with hx | ⟨h1, h2, -⟩ | ⟨h1, h2, -⟩
    · rcases hq with hq | ⟨-, rfl⟩
      · exact (h.pre_edge q c p hq hx).imp_left .inl
      · have := (hw.edge_lt hx).1; omega
    · rcases hq with hq | ⟨hq, -⟩
      · have := h.prel q hq; omega
      · exact .inl (.inr ⟨hq, h2⟩)
    · rcases hq with hq | ⟨hq, -⟩
      · have := h.prel q hq; omega
      · exact .inl (.inl (h2 ▸ hq))

theorem Lab.appendAny (h : Lab L f In R Pre) (hw : f.WF) : Lab L f.appendAnything In R Pre := by
  have ho : f.appendAnything.outputs = f.outputs := by
    simp [Fsm.appendAnything, Fsm.setFinal, Fsm.clearFinal, Fsm.resize, Fsm.connectFinal, Fsm.clearHints]
  refine h.append hw (by rw [Fsm.appendAnything_size]; omega) ho ?_ (by rw [Fsm.appendAnything_initial]) ?_ ?_
  · intro q c p hx
    rcases (Fsm.appendAnything_edge hw q c p).1 hx with hx | ⟨h1, h2, -⟩ | ⟨h1, h2, -⟩
    · exact .inl hx
    · exact .inr ⟨.inr (by omega), by omega⟩
    · exact .inr ⟨.inl h1, by omega⟩
  · intro q hq; rw [Fsm.appendAnything_finals, Finset.mem_singleton] at hq; omega
  · rfl

/-! ### Concatenation -/

theorem concat_output (h : f.WF) (hf : OutIn f) (hr : OutIn g) (q p : Nat) : (f.concat g).output q p =
    if q < f.size then
      if p < f.size then f.output q p
      else if q ∈ f.finals then g.output g.initial (p - f.size) else 0
    else if f.size ≤ p then g.output (q - f.size) (p - f.size) else 0 := by
  have := concat_stored h hf hr q p
  unfold Fsm.output
  rw [this]
  split
  · split
    · rfl
    · split <;> rfl
  · split <;> rfl

theorem Lab.concat (h : Lab L f In R Pre) (hw : f.WF) (hc : f.Coh) (h' : Lab L g In' R' Pre') (hw' : g.WF) (hc' : g.Coh) :
    Lab L (f.concat g) (fun q => if q < f.size then In q else In' (q - f.size)) (fun q => if q < f.size then R q else R' (q - f.size))
      fun q => if q < f.size then Pre q ∨ (Pre' g.initial ∧ ¬ In q) else Pre' g.initial ∧ Pre' (q - f.size) := by
  obtain ⟨c1, c2, -, c3, c4, c5⟩ := Fsm.concat_spec hw hc hw' hc'
  have out := concat_output hw h.out h'.out
  have hil := hw.init_lt
  have hfl := hw.fin_lt
  -- the three kinds of edges
  have edge : ∀ {q c p}, (f.concat g).Edge q c p → (q < f.size ∧ p < f.size ∧ f.Edge q c p ∧ (f.concat g).output q p = f.output q p) ∨
      (∃ q' p', q = f.size + q' ∧ p = f.size + p' ∧ g.Edge q' c p' ∧ (f.concat g).output q p = g.output q' p') ∨
      (q < f.size ∧ q ∈ f.finals ∧ ∃ p', p = f.size + p' ∧ g.Edge g.initial c p' ∧ (f.concat g).output q p = g.output g.initial p') := by
    intro q c p he
    rcases (c4 q c p).1 he with he | ⟨h1, h2, he⟩ | ⟨h1, h2, he⟩
    · obtain ⟨h1, -, h2⟩ := hw.edge_lt he
      exact .inl ⟨h1, h2, he, by rw [out, if_pos h1, if_pos h2]⟩
    · refine .inr (.inl ⟨q - f.size, p - f.size, by omega, by omega, he, ?_⟩)
      rw [out, if_neg (by omega), if_pos h2]
    · refine .inr (.inr ⟨hfl q h1, h1, p - f.size, by omega, he, ?_⟩)
      rw [out, if_pos (hfl q h1), if_neg (by omega), if_pos h1]
  have a1 : ∀ q, q < f.size → (if q < f.size then In q else In' (q - f.size)) = In q := fun q hq => if_pos hq
  have a2 : ∀ q, (if f.size + q < f.size then In (f.size + q) else In' (f.size + q - f.size)) = In' q := fun q => by
    rw [if_neg (by omega), Nat.add_sub_cancel_left]
  have b1 : ∀ q, q < f.size → (if q < f.size then R q else R' (q - f.size)) = R q := fun q hq => if_pos hq
  have b2 : ∀ q, (if f.size + q < f.size then R (f.size + q) else R' (f.size + q - f.size)) = R' q := fun q => by
    rw [if_neg (by omega), Nat.add_sub_cancel_left]
  refine ⟨(concat_out hw hw' h.out h'.out c1).1, ?_, ?_, ?_, ?_, ?_, ?_, ?_, fun hx => (by rw [(Fsm.concat_flags f g).1] at hx; cases hx), ?_, ?_, ?_, ?_⟩
  · intro q hq
    rw [c1]
    split at hq
    · omega
    · have := h'.inl _ hq; omega
  · rw [c2, a1 _ hil]; exact h.init
  · intro q hq
    obtain ⟨h1, h2⟩ := (c3 q).1 hq
    rw [if_neg (by omega)]
    exact h'.fin _ h2
  · intro q p hq hp
    rw [out]
    split
    · next h1 =>
      rw [if_pos h1] at hq
      split
      · next h2 => rw [if_pos h2] at hp; exact h.silent q p hq hp
      · next h2 =>
        rw [if_neg h2] at hp
        split
        · exact h'.silent _ _ h'.init hp
        · exact silent_zero
    · next h1 =>
      rw [if_neg h1] at hq
      split
      · next h2 => rw [if_neg (by omega)] at hp; exact h'.silent _ _ hq hp
      · exact silent_zero
  · intro q c p he hq hp
    rcases edge he with ⟨h1, h2, h3, h4⟩ | ⟨q', p', rfl, rfl, h3, h4⟩ | ⟨h1, h2, p', rfl, h3, h4⟩
    · rw [a1 _ h1] at hq; rw [a1 _ h2] at hp; rw [b1 _ h2, h4]
      exact h.enter q c p h3 hq hp
    · rw [a2] at hq; rw [a2] at hp; rw [b2, h4]
      exact h'.enter q' c p' h3 hq hp
    · rw [a2] at hp; rw [b2, h4]
      exact h'.enter _ c p' h3 h'.init hp
  · intro q c p he hq hp
    rcases edge he with ⟨h1, h2, h3, h4⟩ | ⟨q', p', rfl, rfl, h3, h4⟩ | ⟨h1, h2, p', rfl, h3, h4⟩
    · rw [a1 _ h1] at hq; rw [a1 _ h2] at hp; rw [b1 _ h2, b1 _ h1, h4]
      exact h.stay q c p h3 hq hp
    · rw [a2] at hq; rw [a2] at hp; rw [b2, b2, h4]
      exact h'.stay q' c p' h3 hq hp
    · rw [a1 _ h1] at hq
      exact absurd hq (h.fin q h2)
  · intro q c p he hq hp
    rcases edge he with ⟨h1, h2, h3, h4⟩ | ⟨q', p', rfl, rfl, h3, h4⟩ | ⟨h1, h2, p', rfl, h3, h4⟩
    · rw [a1 _ h1] at hq; rw [a1 _ h2] at hp; rw [b1 _ h1, h4]
      exact h.leave q c p h3 hq hp
    · rw [a2] at hq; rw [a2] at hp; rw [b2, h4]
      exact h'.leave q' c p' h3 hq hp
    · rw [a1 _ h1] at hq
      exact absurd hq (h.fin q h2)
  · intro q hq
    rw [c1]
    split at hq
    · omega
    · have := h'.prel _ hq.2; omega
  · intro q hq
    split at hq
    · next h1 =>
      rw [if_pos h1]
      rcases hq with hq | hq
      · exact h.pre_out q hq
      · exact hq.2
    · next h1 => rw [if_neg h1]; exact h'.pre_out _ hq.2
  · intro q hq hq'
    obtain ⟨h1, h2⟩ := (c3 q).1 hq'
    rw [if_neg (by omega)] at hq
    exact h'.pre_fin _ hq.2 h2
  · intro q c p hq he
    rcases edge he with ⟨h1, h2, h3, h4⟩ | ⟨q', p', rfl, rfl, h3, h4⟩ | ⟨h1, h2, p', rfl, h3, h4⟩
    · rw [if_pos h1] at hq
      rw [if_pos h2, if_pos h2]
      by_cases hp : In p
      · exact .inr hp
      · rcases hq with hq | hq
        · exact (h.pre_edge q c p hq h3).imp_left .inl
        · exact .inl (.inr ⟨hq.1, hp⟩)
    · rw [if_neg (by omega)] at hq
      rw [if_neg (by omega), if_neg (by omega)]
      rw [Nat.add_sub_cancel_left] at hq ⊢
      exact (h'.pre_edge q' c p' hq.2 h3).imp_left fun x => ⟨hq.1, x⟩
    · rw [if_pos h1] at hq
      rw [if_neg (by omega), if_neg (by omega)]
      rw [Nat.add_sub_cancel_left]
      rcases hq with hq | hq
      · exact absurd h2 (h.pre_fin q hq)
      · exact (h'.pre_edge _ c p' hq.1 h3).imp_left fun x => ⟨hq.1, x⟩

/-! ### Union -/

/-- What `|=` makes of two automata. -/
structure UnionEdges (f g u : Fsm) : Prop where
  lo : f.size + g.size ≤ u.size
  outputs : u.outputs = (f.import_ g).outputs
  init : (u.initial = f.initial ∧ f.isAlt = true) ∨ (u.initial = f.size + g.initial ∧ g.isAlt = true) ∨ u.initial = f.size + g.size
  root : (u.initial = f.initial ∧ f.isAlt = true ∧ ∀ c p, f.Edge f.initial c p → u.Edge f.initial c p) ∨ (f.isAlt = false ∧ u.Edge u.initial 257 f.initial)
  alt : u.isAlt = true
  fin : ∀ q ∈ u.finals, q ∈ f.finals ∨ ∃ q', q = f.size + q' ∧ q' ∈ g.finals
  edge : ∀ q c p, u.Edge q c p → f.Edge q c p ∨ (∃ q' p', q = f.size + q' ∧ p = f.size + p' ∧ g.Edge q' c p') ∨
    (((q = f.initial ∧ ∃ p', p = f.size + p') ∨ (q = f.size + g.initial ∧ p = f.initial) ∨ q = f.size + g.size) ∧ (p = f.initial ∨ p = f.size + g.initial ∨
      ∃ p', p = f.size + p' ∧ g.isAlt = true ∧ g.Edge g.initial 257 p'))
  label : ∀ q c p, u.Edge q c p → f.Edge q c p ∨ (∃ q' p', q = f.size + q' ∧ p = f.size + p' ∧ g.Edge q' c p') ∨ c = 257

theorem union_edges (h : f.WF) (hc : f.Coh) (h2 : g.WF) (hc2 : g.Coh) : UnionEdges f g (f.union g) := by
  obtain ⟨bw, braw, bsize, binit, bfin, bE⟩ := Fsm.unionBase_spec h hc h2 hc2
  obtain ⟨b, hb⟩ : ∃ b, b = Fsm.unionBase f g := ⟨_, rfl⟩
  rw [← hb] at bw braw bsize binit bfin bE
  have bout : b.outputs = (f.import_ g).outputs := by rw [hb]; rfl
  have hi := h.init_lt
  have hi2 := h2.init_lt
  have bE' : ∀ q c p, b.Edge q c p → f.Edge q c p ∨ ∃ q' p', q = f.size + q' ∧ p = f.size + p' ∧ g.Edge q' c p' := by
    intro q c p he
    rcases (bE q c p).1 he with he | ⟨h3, h4, he⟩
    · exact .inl he
    · exact .inr ⟨q - f.size, p - f.size, by omega, by omega, he⟩
  have bF : ∀ q ∈ b.finals, q ∈ f.finals ∨ ∃ q', q = f.size + q' ∧ q' ∈ g.finals := by
    intro q hq
    rcases (bfin q).1 hq with hq | ⟨h3, h4⟩
    · exact .inl hq
    · exact .inr ⟨q - f.size, by omega, h4⟩
  unfold Fsm.union
  by_cases a1 : f.isAlt = true <;> by_cases a2 : g.isAlt = true
  · simp only [a1, a2, Bool.not_true, Bool.and_self, Bool.false_and, Bool.and_false, Bool.false_eq_true, if_false]
    obtain ⟨l, hl⟩ : ∃ l, l = elems (g.destinations g.initial Epsilon) := ⟨_, rfl⟩
    have hml : ∀ x ∈ l, g.Edge g.initial 257 x := by
      intro x
      rw [hl, mem_elems, Fsm.edge_iff, Fsm.key_eps]
      simp [Fsm.destinations, Fsm.translate]
    obtain ⟨k1, k2, k3, k4, k5, k6⟩ := Fsm.alt4_spec l f.size g.initial b (by rw [binit]; omega) braw
    have kout : (l.foldl (fun h p => (h.connect h.initial (p + f.size) Epsilon).disconnect (g.initial + f.size)
          (p + f.size) Epsilon) b).outputs = b.outputs := by
      clear hml hl k1 k2 k3 k4 k5 k6
      have : ∀ (l : List Nat) (b : Fsm), (l.foldl (fun h p => (h.connect h.initial (p + f.size) Epsilon).disconnect (g.initial + f.size)
          (p + f.size) Epsilon) b).outputs = b.outputs := by
        intro l
        induction l with
        | nil => intro b; rfl
        | cons x l ih => intro b; rw [List.foldl_cons, ih]; rfl
      exact this l b
    change UnionEdges f g
      { (elems (g.destinations g.initial Epsilon)).foldl (fun h p => (h.connect h.initial (p + f.size) Epsilon).disconnect (g.initial + f.size)
          (p + f.size) Epsilon) (Fsm.unionBase f g) with determined := false, isAlt := true }
    rw [← hl, ← hb]
    obtain ⟨g0, hg0⟩ : ∃ g0, g0 = l.foldl (fun h p => (h.connect h.initial (p + f.size) Epsilon).disconnect (g.initial + f.size)
          (p + f.size) Epsilon) b := ⟨_, rfl⟩
    rw [← hg0] at k1 k2 k3 k4 k5 kout ⊢
    refine ⟨?_, kout.trans bout, .inl ⟨k2.trans binit, a1⟩, .inl ⟨k2.trans binit, a1, ?_⟩, rfl, ?_, ?_, ?_⟩
    · show _ ≤ g0.size; rw [k1, bsize]
    · intro c p he
      show g0.Edge f.initial c p
      exact (k5 _ _ _).2 (.inl ⟨(bE _ _ _).2 (.inl he), by omega⟩)
    · intro q hq
      have hq : q ∈ g0.finals := hq
      rw [k3] at hq; exact bF q hq
    · intro q c p he
      have he : g0.Edge q c p := he
      rcases (k5 q c p).1 he with ⟨he, -⟩ | ⟨h3, h4, x, hx, rfl⟩
      · exact (bE' q c p he).imp_right .inl
      · refine .inr (.inr ⟨.inl ⟨by rw [h3, binit], x, by omega⟩, .inr (.inr ⟨x, by omega, a2, hml x hx⟩)⟩)
    · intro q c p he
      have he : g0.Edge q c p := he
      rcases (k5 q c p).1 he with ⟨he, -⟩ | ⟨-, h4, -⟩
      · exact (bE' q c p he).imp_right .inl
      · exact .inr (.inr h4)
  · simp only [a1, a2, Bool.not_true, Bool.not_false, Bool.and_true, Bool.false_and, Bool.false_eq_true, if_false, if_true]
    change UnionEdges f g { (Fsm.unionBase f g).connect (Fsm.unionBase f g).initial (f.size + g.initial) Epsilon with determined := false, isAlt := true }
    rw [← hb]
    refine ⟨by show _ ≤ b.size; omega, bout, .inl ⟨binit, a1⟩, .inl ⟨binit, a1, fun c p he => Fsm.edge_connect.2 (.inl ((bE _ _ _).2 (.inl he)))⟩, rfl, bF, ?_, ?_⟩
    · intro q c p he
      have he : (b.connect b.initial (f.size + g.initial) Epsilon).Edge q c p := he
      rcases Fsm.edge_connect.1 he with he | ⟨rfl, rfl, -⟩
      · exact (bE' q c p he).imp_right .inl
      · exact .inr (.inr ⟨.inl ⟨binit, _, rfl⟩, .inr (.inl rfl)⟩)
    · intro q c p he
      have he : (b.connect b.initial (f.size + g.initial) Epsilon).Edge q c p := he
      rcases Fsm.edge_connect.1 he with he | ⟨-, -, hk⟩
      · exact (bE' q c p he).imp_right .inl
      · rw [Fsm.key_raw braw] at hk; exact .inr (.inr hk)
  · simp only [a1, a2, Bool.not_true, Bool.not_false, Bool.and_true, Bool.false_and, Bool.and_false, Bool.true_and, Bool.false_eq_true, if_false, if_true]
    change UnionEdges f g { (Fsm.unionBase f g).connect (f.size + g.initial) (Fsm.unionBase f g).initial Epsilon with initial := g.initial + f.size, determined := false, isAlt := true }
    rw [← hb]
    refine ⟨by show _ ≤ b.size; omega, bout, .inr (.inl ⟨Nat.add_comm _ _, a2⟩),
      .inr ⟨by simpa using a1, Fsm.edge_connect.2 (.inr ⟨Nat.add_comm _ _, binit.symm, Fsm.key_eps b⟩)⟩, rfl, bF, ?_, ?_⟩
    · intro q c p he
      have he : (b.connect (f.size + g.initial) b.initial Epsilon).Edge q c p := he
      rcases Fsm.edge_connect.1 he with he | ⟨rfl, rfl, -⟩
      · exact (bE' q c p he).imp_right .inl
      · exact .inr (.inr ⟨.inr (.inl ⟨rfl, binit⟩), .inl binit⟩)
    · intro q c p he
      have he : (b.connect (f.size + g.initial) b.initial Epsilon).Edge q c p := he
      rcases Fsm.edge_connect.1 he with he | ⟨-, -, hk⟩
      · exact (bE' q c p he).imp_right .inl
      · rw [Fsm.key_raw braw] at hk; exact .inr (.inr hk)
  · simp only [a1, a2, Bool.not_false, Bool.and_self, if_true]
    change UnionEdges f g { ((((Fsm.unionBase f g).resize ((Fsm.unionBase f g).size + 1)).connect ((Fsm.unionBase f g).size + 1 - 1) (Fsm.unionBase f g).initial Epsilon).connect
      ((Fsm.unionBase f g).size + 1 - 1) (f.size + g.initial) Epsilon) with
      initial := (Fsm.unionBase f g).size + 1 - 1, determined := false, isAlt := true }
    rw [← hb]
    refine ⟨by show _ ≤ b.size + 1; omega, bout, .inr (.inr (by show b.size + 1 - 1 = _; omega)),
      .inr ⟨by simpa using a1, Fsm.edge_connect.2 (.inl (Fsm.edge_connect.2 (.inr ⟨rfl, binit.symm, Fsm.key_eps _⟩)))⟩, rfl, bF, ?_, ?_⟩
    · intro q c p he
      have he : (((b.resize (b.size + 1)).connect (b.size + 1 - 1) b.initial Epsilon).connect (b.size + 1 - 1) (f.size + g.initial) Epsilon).Edge q c p := he
      have e1 : (b.resize (b.size + 1)).Edge = b.Edge := Fsm.edge_congr (bw.resize_tr (by omega)) rfl
      rcases Fsm.edge_connect.1 he with he | ⟨rfl, rfl, -⟩
      · rcases Fsm.edge_connect.1 he with he | ⟨rfl, rfl, -⟩
        · rw [e1] at he; exact (bE' q c p he).imp_right .inl
        · exact .inr (.inr ⟨.inr (.inr (by omega)), .inl binit⟩)
      · exact .inr (.inr ⟨.inr (.inr (by omega)), .inr (.inl rfl)⟩)
    · intro q c p he
      have he : (((b.resize (b.size + 1)).connect (b.size + 1 - 1) b.initial Epsilon).connect (b.size + 1 - 1) (f.size + g.initial) Epsilon).Edge q c p := he
      have e1 : (b.resize (b.size + 1)).Edge = b.Edge := Fsm.edge_congr (bw.resize_tr (by omega)) rfl
      have r1 : (b.resize (b.size + 1)).Raw := braw
      rcases Fsm.edge_connect.1 he with he | ⟨-, -, hk⟩
      · rcases Fsm.edge_connect.1 he with he | ⟨-, -, hk⟩
        · rw [e1] at he; exact (bE' q c p he).imp_right .inl
        · rw [Fsm.key_raw r1] at hk; exact .inr (.inr hk)
      · rw [Fsm.key_raw (f := (b.resize (b.size + 1)).connect (b.size + 1 - 1) b.initial Epsilon) braw] at hk; exact .inr (.inr hk)

theorem UnionEdges.output {u : Fsm} (hu : UnionEdges f g u) (hf : OutIn f) (hg : OutIn g) (q p : Nat) : u.output q p =
    if q < f.size then f.output q p else if f.size ≤ p then g.output (q - f.size) (p - f.size) else 0 := by
  have := import_stored hf hg q p
  unfold Fsm.output
  rw [hu.outputs, this]
  split
  · rfl
  · split <;> rfl

theorem Lab.union (h : Lab L f In R Pre) (hw : f.WF) (hc : f.Coh) (h' : Lab L g In' R' Pre') (hw' : g.WF) (hc' : g.Coh) :
    Lab L (f.union g) (fun q => if q < f.size then In q else In' (q - f.size)) (fun q => if q < f.size then R q else R' (q - f.size)) fun _ => False := by
  have hu := union_edges hw hc hw' hc'
  have out := hu.output h.out h'.out
  have hil := hw.init_lt
  have hil' := hw'.init_lt
  have hfl := hw.fin_lt
  have a1 : ∀ q, q < f.size → (if q < f.size then In q else In' (q - f.size)) = In q := fun q hq => if_pos hq
  have a2 : ∀ q, (if f.size + q < f.size then In (f.size + q) else In' (f.size + q - f.size)) = In' q := fun q => by
    rw [if_neg (by omega), Nat.add_sub_cancel_left]
  have b1 : ∀ q, q < f.size → (if q < f.size then R q else R' (q - f.size)) = R q := fun q hq => if_pos hq
  have b2 : ∀ q, (if f.size + q < f.size then R (f.size + q) else R' (f.size + q - f.size)) = R' q := fun q => by
    rw [if_neg (by omega), Nat.add_sub_cancel_left]
  have n0 : ¬ In' g.size := fun hx => by have := h'.inl _ hx; omega
  -- the ends of new edges are outside
  have edge : ∀ {q c p}, (f.union g).Edge q c p → (q < f.size ∧ p < f.size ∧ f.Edge q c p ∧ (f.union g).output q p = f.output q p) ∨
      (∃ q' p', q = f.size + q' ∧ p = f.size + p' ∧ g.Edge q' c p' ∧ (f.union g).output q p = g.output q' p') ∨
      (¬ (if q < f.size then In q else In' (q - f.size)) ∧ ¬ (if p < f.size then In p else In' (p - f.size))) := by
    intro q c p he
    rcases hu.edge q c p he with he' | ⟨q', p', rfl, rfl, he'⟩ | ⟨hq, hp⟩
    · obtain ⟨h1, -, h2⟩ := hw.edge_lt he'
      exact .inl ⟨h1, h2, he', by rw [out, if_pos h1]⟩
    · refine .inr (.inl ⟨q', p', rfl, rfl, he', ?_⟩)
      rw [out, if_neg (by omega), if_pos (by omega), Nat.add_sub_cancel_left, Nat.add_sub_cancel_left]
    · refine .inr (.inr ⟨?_, ?_⟩)
      · rcases hq with ⟨rfl, -⟩ | ⟨rfl, -⟩ | rfl
        · rw [a1 _ hil]; exact h.init
        · rw [a2]; exact h'.init
        · rw [a2]; exact n0
      · rcases hp with rfl | rfl | ⟨p', rfl, ha, hp⟩
        · rw [a1 _ hil]; exact h.init
        · rw [a2]; exact h'.init
        · rw [a2]; exact h'.alt ha _ _ hp
  refine ⟨?_, ?_, ?_, ?_, ?_, ?_, ?_, ?_, ?_, nofun, nofun, nofun, nofun⟩
  · intro q p v hv
    rw [hu.outputs, import_stored h.out h'.out] at hv
    have := hu.lo
    split at hv
    · have := h.out q p v hv; omega
    · split at hv
      · have := h'.out _ _ v hv; omega
      · cases hv
  · intro q hq
    have := hu.lo
    split at hq
    · omega
    · have := h'.inl _ hq; omega
  · rcases hu.init with ⟨e, -⟩ | ⟨e, -⟩ | e
    · rw [e, a1 _ hil]; exact h.init
    · rw [e, a2]; exact h'.init
    · rw [e, a2]; exact n0
  · intro q hq
    rcases hu.fin q hq with hq' | ⟨q', rfl, hq'⟩
    · rw [a1 _ (hfl q hq')]; exact h.fin q hq'
    · rw [a2]; exact h'.fin q' hq'
  · intro q p hq hp
    rw [out]
    split
    · next h1 =>
      rw [if_pos h1] at hq
      by_cases h2 : p < f.size
      · rw [if_pos h2] at hp; exact h.silent q p hq hp
      · rw [h.out.zero (.inr (by omega))]; exact silent_zero
    · next h1 =>
      rw [if_neg h1] at hq
      split
      · next h2 => rw [if_neg (by omega)] at hp; exact h'.silent _ _ hq hp
      · exact silent_zero
  · intro q c p he hq hp
    rcases edge he with ⟨h1, h2, h3, h4⟩ | ⟨q', p', rfl, rfl, h3, h4⟩ | ⟨h1, h2⟩
    · rw [a1 _ h1] at hq; rw [a1 _ h2] at hp; rw [b1 _ h2, h4]
      exact h.enter q c p h3 hq hp
    · rw [a2] at hq; rw [a2] at hp; rw [b2, h4]
      exact h'.enter q' c p' h3 hq hp
    · exact absurd hp h2
  · intro q c p he hq hp
    rcases edge he with ⟨h1, h2, h3, h4⟩ | ⟨q', p', rfl, rfl, h3, h4⟩ | ⟨h1, h2⟩
    · rw [a1 _ h1] at hq; rw [a1 _ h2] at hp; rw [b1 _ h2, b1 _ h1, h4]
      exact h.stay q c p h3 hq hp
    · rw [a2] at hq; rw [a2] at hp; rw [b2, b2, h4]
      exact h'.stay q' c p' h3 hq hp
    · exact absurd hp h2
  · intro q c p he hq hp
    rcases edge he with ⟨h1, h2, h3, h4⟩ | ⟨q', p', rfl, rfl, h3, h4⟩ | ⟨h1, h2⟩
    · rw [a1 _ h1] at hq; rw [a1 _ h2] at hp; rw [b1 _ h1, h4]
      exact h.leave q c p h3 hq hp
    · rw [a2] at hq; rw [a2] at hp; rw [b2, h4]
      exact h'.leave q' c p' h3 hq hp
    · exact absurd hq h1
  · intro _ c p he
    rcases edge he with ⟨h1, h2, h3, h4⟩ | ⟨q', p', hq, rfl, h3, h4⟩ | ⟨h1, h2⟩
    · rw [a1 _ h2]
      rcases hu.init with ⟨e, ha⟩ | ⟨e, -⟩ | e
      · rw [e] at h3; exact h.alt ha c p h3
      · omega
      · omega
    · rw [a2]
      rcases hu.init with ⟨e, -⟩ | ⟨e, ha⟩ | e
      · omega
      · obtain rfl : q' = g.initial := by omega
        exact h'.alt ha c p' h3
      · have := (hw'.edge_lt h3).1; omega
    · exact h2

end Capture
end Pire
