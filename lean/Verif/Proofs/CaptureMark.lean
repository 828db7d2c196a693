import Verif.Model.Capture
import Verif.Proofs.FsmOps

/-!
# The marks of `Features::Capture`
-/

namespace Pire
namespace Capture

theorem output_setOutput (f : Fsm) (q p v q' p' : Nat) : (setOutput f q p v).output q' p' = if q' = q ∧ p' = p then v else f.output q' p' := by
  unfold setOutput Fsm.output
  simp only
  by_cases hq : q' = q
  · subst hq
    rw [Function.update_self, Option.bind_some]
    by_cases hp : p' = p
    · subst hp; simp
    · rw [Function.update_of_ne hp, if_neg (by simp [hp])]
      cases f.outputs q' <;> rfl
  · rw [Function.update_of_ne hq, if_neg (by simp [hq])]

theorem foldl_setOutput (p v : Nat) (l : List Nat) : ∀ g : Fsm, ∃ o, l.foldl (fun g q => setOutput g q p v) g = { g with outputs := o } ∧
    ∀ q' p', (l.foldl (fun g q => setOutput g q p v) g).output q' p' = if q' ∈ l ∧ p' = p then v else g.output q' p' := by
  induction l with
  | nil => intro g; exact ⟨g.outputs, rfl, by simp⟩
  | cons q l ih =>
    intro g
    obtain ⟨o, e, ho⟩ := ih (setOutput g q p v)
    refine ⟨o, by rw [List.foldl_cons, e]; rfl, fun q' p' => ?_⟩
    rw [List.foldl_cons, ho, output_setOutput]
    by_cases h1 : q' ∈ l ∧ p' = p
    · rw [if_pos h1, if_pos ⟨List.mem_cons_of_mem _ h1.1, h1.2⟩]
    · rw [if_neg h1]
      by_cases h2 : q' = q ∧ p' = p
      · rw [if_pos h2, if_pos ⟨by rw [h2.1]; exact List.mem_cons_self .., h2.2⟩]
      · rw [if_neg h2, if_neg]
        rintro ⟨h3, h4⟩
        rcases List.mem_cons.1 h3 with h3 | h3
        · exact h2 ⟨h3, h4⟩
        · exact h1 ⟨h3, h4⟩

theorem markFinals_spec (f : Fsm) (p v : Nat) : ∃ o, markFinals f p v = { f with outputs := o } ∧
    ∀ q' p', (markFinals f p v).output q' p' = if q' ∈ f.finals ∧ p' = p then v else f.output q' p' := by
  obtain ⟨o, e, ho⟩ := foldl_setOutput p v (elems f.finals) f
  refine ⟨o, e, fun q' p' => ?_⟩
  have := ho q' p'
  simp only [mem_elems] at this
  exact this

variable {f : Fsm}

/-- What the capture marks add to an automaton. -/
theorem setCaptureMark_spec (h : f.WF) :
    (setCaptureMark f).WF ∧ (setCaptureMark f).size = f.size + 2 ∧ (setCaptureMark f).initial = f.size ∧ (setCaptureMark f).finals = {f.size + 1} ∧
    (setCaptureMark f).letters = f.letters ∧ (setCaptureMark f).tags = f.tags ∧ (setCaptureMark f).determined = false ∧ (setCaptureMark f).sparsed = f.sparsed ∧
    (∀ q c p, (setCaptureMark f).Edge q c p ↔ f.Edge q c p ∨ (q = f.size ∧ c = 257 ∧ p = f.initial) ∨ (q ∈ f.finals ∧ c = 257 ∧ p = f.size + 1)) ∧
    ∀ q p, (setCaptureMark f).output q p = if q ∈ f.finals ∧ p = f.size + 1 then 2 else if q = f.size ∧ p = f.initial then 1 else f.output q p := by
  have h1 := h.resize (n := f.size + 2) (by omega)
  have h2 := h1.connect (q := f.size) (p := f.initial) (c := 257) (by simp) (by have := h.init_lt; simp; omega) (by omega)
  have h3 := h2.connectFinal (p := f.size + 1) (c := 257) (by simp) (by omega)
  obtain ⟨g, hg⟩ : ∃ g, g = (((f.resize (f.size + 2)).connect f.size f.initial Epsilon).connectFinal (f.size + 1) Epsilon) := ⟨_, rfl⟩
  have g1 : g.WF := by rw [hg]; exact h3
  have gs : g.size = f.size + 2 := by rw [hg, Fsm.connectFinal_size]; rfl
  have gi : g.initial = f.initial := by rw [hg, Fsm.connectFinal_initial]; rfl
  have gf : g.finals = f.finals := by rw [hg, Fsm.connectFinal_finals]; rfl
  have gl : g.letters = f.letters := by rw [hg, Fsm.connectFinal_letters]; rfl
  have gt : g.tags = f.tags := by rw [hg]; unfold Fsm.connectFinal; exact (Fsm.connectAll_tags _ _)
  have gsp : g.sparsed = f.sparsed := by rw [hg, Fsm.connectFinal_sparsed]; rfl
  have go : ∀ q p, g.output q p = f.output q p := by
    intro q p
    have : g.outputs = f.outputs := by rw [hg]; unfold Fsm.connectFinal; exact (Fsm.connectAll_outputs _ _)
    unfold Fsm.output; rw [this]
  have ge : ∀ q c p, g.Edge q c p ↔ f.Edge q c p ∨ (q = f.size ∧ c = 257 ∧ p = f.initial) ∨ (q ∈ f.finals ∧ c = 257 ∧ p = f.size + 1) := by
    intro q c p
    rw [hg, Fsm.edge_connectFinal, Fsm.edge_connect]
    have e1 : (f.resize (f.size + 2)).Edge = f.Edge := Fsm.edge_congr (h.resize_tr (by omega)) rfl
    have e2 : (f.resize (f.size + 2)).key c = f.key c := Fsm.key_congr rfl c
    have e3 : ((f.resize (f.size + 2)).connect f.size f.initial Epsilon).key c = f.key c := Fsm.key_congr rfl c
    have e4 : ((f.resize (f.size + 2)).connect f.size f.initial Epsilon).finals = f.finals := rfl
    rw [e1, e2, e3, e4]
    have e5 : f.key c = Epsilon ↔ c = 257 := h.key_eq_eps
    rw [e5, or_assoc, and_comm (a := p = f.initial), and_comm (a := p = f.size + 1)]
  obtain ⟨o, e, ho⟩ := markFinals_spec (setOutput g f.size g.initial 1) (f.size + 1) 2
  have hdef : setCaptureMark f = notDetermined ((((markFinals (setOutput g f.size g.initial 1) (f.size + 1) 2).setInitial f.size).clearFinal).setFinal (f.size + 1) true) := by
    rw [hg]; rfl
  have edge : (setCaptureMark f).Edge = g.Edge := by
    rw [hdef]; refine Fsm.edge_congr ?_ ?_ <;> · rw [e]; rfl
  refine ⟨?_, ?_, ?_, ?_, ?_, ?_, ?_, ?_, fun q c p => by rw [edge]; exact ge q c p, fun q p => ?_⟩
  · have hs : (setCaptureMark f).size = f.size + 2 := by rw [hdef, e]; exact gs
    refine g1.congr (by rw [hs, gs]) ?_ ?_ ?_ ?_
    · rw [hs, hdef]; show f.size < _; omega
    · intro q hq
      rw [hs]
      have hq' : q ∈ ({f.size + 1} : Finset Nat) := by rw [hdef] at hq; exact hq
      rw [Finset.mem_singleton] at hq'
      omega
    · rw [hdef, e]; rfl
    · rw [hdef, e]; rfl
  · rw [hdef, e]; exact gs
  · rw [hdef, e]; rfl
  · rw [hdef, e]; rfl
  · rw [hdef, e]; exact gl
  · rw [hdef, e]; exact gt
  · rw [hdef]; rfl
  · rw [hdef, e]; exact gsp
  · have : (setCaptureMark f).output q p = (markFinals (setOutput g f.size g.initial 1) (f.size + 1) 2).output q p := by rw [hdef]; rfl
    rw [this, ho, output_setOutput, gi, go]
    have : (setOutput g f.size f.initial 1).finals = f.finals := gf
    rw [this]

/-- Paths of the marked automaton that start in an old state. -/
theorem run_mark (h : f.WF) {q p : Nat} {w : List Nat} (hr : Run (setCaptureMark f).Edge q w p) (hq : q < f.size) :
    (p < f.size ∧ Run f.Edge q w p) ∨ (p = f.size + 1 ∧ ∃ r ∈ f.finals, Run f.Edge q w r) := by
  obtain ⟨-, -, -, -, -, -, -, -, he, -⟩ := setCaptureMark_spec h
  have hend : ∀ {w p}, Run (setCaptureMark f).Edge (f.size + 1) w p → w = [] ∧ p = f.size + 1 := by
    intro w p hr
    have hno : ∀ c p, ¬ (setCaptureMark f).Edge (f.size + 1) c p := by
      intro c p hx
      rcases (he _ _ _).1 hx with h1 | ⟨h1, -⟩ | ⟨h1, -⟩
      · have := (h.edge_lt h1).1; omega
      · omega
      · have := h.fin_lt _ h1; omega
    cases hr with
    | refl => exact ⟨rfl, rfl⟩
    | eps h1 _ => exact absurd h1 (hno _ _)
    | step _ h1 _ => exact absurd h1 (hno _ _)
  induction hr with
  | refl q => exact .inl ⟨hq, .refl q⟩
  | @eps q q' w p h1 h2 ih =>
    rcases (he _ _ _).1 h1 with h3 | ⟨h3, -⟩ | ⟨h3, -, h5⟩
    · rcases ih (h.edge_lt h3).2.2 with ⟨a, b⟩ | ⟨a, r, hr, b⟩
      · exact .inl ⟨a, .eps h3 b⟩
      · exact .inr ⟨a, r, hr, .eps h3 b⟩
    · omega
    · subst h5
      obtain ⟨rfl, rfl⟩ := hend h2
      exact .inr ⟨rfl, q, h3, .refl q⟩
  | @step q c q' w p hc h1 h2 ih =>
    rcases (he _ _ _).1 h1 with h3 | ⟨h3, -⟩ | ⟨-, h4, -⟩
    · rcases ih (h.edge_lt h3).2.2 with ⟨a, b⟩ | ⟨a, r, hr, b⟩
      · exact .inl ⟨a, .step hc h3 b⟩
      · exact .inr ⟨a, r, hr, .step hc h3 b⟩
    · omega
    · exact absurd h4 hc

theorem run_mono {E E' : Nat → Nat → Nat → Prop} (hE : ∀ q c p, E q c p → E' q c p) {q p : Nat} {w : List Nat} (hr : Run E q w p) : Run E' q w p := by
  induction hr with
  | refl q => exact .refl q
  | eps h1 _ ih => exact .eps (hE _ _ _ h1) ih
  | step hc h1 _ ih => exact .step hc (hE _ _ _ h1) ih

theorem setCaptureMark_lang (h : f.WF) : (setCaptureMark f).Lang = f.Lang := by
  obtain ⟨-, -, hi, hf, -, -, -, -, he, -⟩ := setCaptureMark_spec h
  unfold Fsm.Lang
  rw [hi]
  ext w
  rw [Fsm.mem_langFrom, Fsm.mem_langFrom, hf]
  constructor
  · rintro ⟨p, hp, hr⟩
    obtain rfl := Finset.mem_singleton.1 hp
    have hin : Run (setCaptureMark f).Edge f.initial w (f.size + 1) := by
      generalize hz : f.size + 1 = z at hr ⊢
      generalize hy : f.size = y at hr
      cases hr with
      | refl => omega
      | eps h1 h2 =>
        rcases (he _ _ _).1 h1 with h3 | ⟨-, -, h5⟩ | ⟨h3, -⟩
        · have := (h.edge_lt h3).1; omega
        · rw [← h5]; exact h2
        · have := h.fin_lt _ h3; omega
      | step hc h1 h2 =>
        rcases (he _ _ _).1 h1 with h3 | ⟨-, h4, -⟩ | ⟨-, h4, -⟩
        · have := (h.edge_lt h3).1; omega
        · exact absurd h4 hc
        · exact absurd h4 hc
    rcases run_mark h hin h.init_lt with ⟨h1, -⟩ | ⟨-, r, hr, h2⟩
    · omega
    · exact ⟨r, hr, h2⟩
  · rintro ⟨r, hr, h1⟩
    refine ⟨f.size + 1, Finset.mem_singleton_self _, .eps ((he _ _ _).2 (.inr (.inl ⟨rfl, rfl, rfl⟩))) ?_⟩
    have h2 : Run (setCaptureMark f).Edge f.initial w r := run_mono (fun q c p h => (he q c p).2 (.inl h)) h1
    have h3 : Run (setCaptureMark f).Edge r [] (f.size + 1) := .eps ((he _ _ _).2 (.inr (.inr ⟨hr, rfl, rfl⟩))) (.refl _)
    have := h2.trans h3
    rwa [List.append_nil] at this

/-- What the repetition marks add to an automaton. -/
theorem setRepetitionMark_spec (h : f.WF) (b : Bool) :
    (setRepetitionMark f b).WF ∧ (setRepetitionMark f b).size = f.size + 1 ∧ (setRepetitionMark f b).initial = f.initial ∧
    (setRepetitionMark f b).finals = {f.size} ∧ (setRepetitionMark f b).letters = f.letters ∧
    (∀ q c p, (setRepetitionMark f b).Edge q c p ↔ f.Edge q c p ∨ (q ∈ f.finals ∧ c = 257 ∧ p = f.size)) ∧
    ∀ q p, (setRepetitionMark f b).output q p = if q ∈ f.finals ∧ p = f.size then (if b then 4 else 8) else f.output q p := by
  have h1 := h.resize (n := f.size + 1) (by omega)
  have h3 := h1.connectFinal (p := f.size) (c := 257) (by simp) (by omega)
  obtain ⟨g, hg⟩ : ∃ g, g = ((f.resize (f.size + 1)).connectFinal f.size Epsilon) := ⟨_, rfl⟩
  have g1 : g.WF := by rw [hg]; exact h3
  have gs : g.size = f.size + 1 := by rw [hg, Fsm.connectFinal_size]; rfl
  have gi : g.initial = f.initial := by rw [hg, Fsm.connectFinal_initial]; rfl
  have gf : g.finals = f.finals := by rw [hg, Fsm.connectFinal_finals]; rfl
  have gl : g.letters = f.letters := by rw [hg, Fsm.connectFinal_letters]; rfl
  have go : ∀ q p, g.output q p = f.output q p := by
    intro q p
    have : g.outputs = f.outputs := by rw [hg]; unfold Fsm.connectFinal; exact (Fsm.connectAll_outputs _ _)
    unfold Fsm.output; rw [this]
  have ge : ∀ q c p, g.Edge q c p ↔ f.Edge q c p ∨ (q ∈ f.finals ∧ c = 257 ∧ p = f.size) := by
    intro q c p
    rw [hg, Fsm.edge_connectFinal]
    have e1 : (f.resize (f.size + 1)).Edge = f.Edge := Fsm.edge_congr (h.resize_tr (by omega)) rfl
    have e2 : (f.resize (f.size + 1)).key c = f.key c := Fsm.key_congr rfl c
    have e4 : (f.resize (f.size + 1)).finals = f.finals := rfl
    rw [e1, e2, e4]
    have e5 : f.key c = Epsilon ↔ c = 257 := h.key_eq_eps
    rw [e5, and_comm (a := p = f.size)]
  obtain ⟨o, e, ho⟩ := markFinals_spec g f.size (if b then 4 else 8)
  have hdef : setRepetitionMark f b = notDetermined (((markFinals g f.size (if b then 4 else 8)).clearFinal).setFinal f.size true) := by
    rw [hg]; rfl
  have edge : (setRepetitionMark f b).Edge = g.Edge := by
    rw [hdef]; refine Fsm.edge_congr ?_ ?_ <;> · rw [e]; rfl
  have hs : (setRepetitionMark f b).size = f.size + 1 := by rw [hdef, e]; exact gs
  have hi : (setRepetitionMark f b).initial = f.initial := by rw [hdef, e]; exact gi
  refine ⟨?_, hs, hi, ?_, ?_, fun q c p => by rw [edge]; exact ge q c p, fun q p => ?_⟩
  · refine g1.congr (by rw [hs, gs]) ?_ ?_ ?_ ?_
    · rw [hs, hi]; have := h.init_lt; omega
    · intro q hq
      rw [hs]
      have hq' : q ∈ ({f.size} : Finset Nat) := by rw [hdef] at hq; exact hq
      rw [Finset.mem_singleton] at hq'
      omega
    · rw [hdef, e]; rfl
    · rw [hdef, e]; rfl
  · rw [hdef, e]; rfl
  · rw [hdef, e]; exact gl
  · have : (setRepetitionMark f b).output q p = (markFinals g f.size (if b then 4 else 8)).output q p := by rw [hdef]; rfl
    rw [this, ho, go, gf]

theorem setRepetitionMark_lang (h : f.WF) (b : Bool) : (setRepetitionMark f b).Lang = f.Lang := by
  obtain ⟨-, -, hi, hf, -, he, -⟩ := setRepetitionMark_spec h b
  have hend : ∀ {w p}, Run (setRepetitionMark f b).Edge f.size w p → w = [] ∧ p = f.size := by
    intro w p hr
    have hno : ∀ c p, ¬ (setRepetitionMark f b).Edge f.size c p := by
      intro c p hx
      rcases (he _ _ _).1 hx with h1 | ⟨h1, -⟩
      · have := (h.edge_lt h1).1; omega
      · have := h.fin_lt _ h1; omega
    cases hr with
    | refl => exact ⟨rfl, rfl⟩
    | eps h1 _ => exact absurd h1 (hno _ _)
    | step _ h1 _ => exact absurd h1 (hno _ _)
  have key : ∀ {q p w}, Run (setRepetitionMark f b).Edge q w p → q < f.size → (p < f.size ∧ Run f.Edge q w p) ∨ (p = f.size ∧ ∃ r ∈ f.finals, Run f.Edge q w r) := by
    intro q p w hr
    induction hr with
    | refl q => intro hq; exact .inl ⟨hq, .refl q⟩
    | @eps q q' w p h1 h2 ih =>
      intro hq
      rcases (he _ _ _).1 h1 with h3 | ⟨h3, -, h5⟩
      · rcases ih (h.edge_lt h3).2.2 with ⟨a, b⟩ | ⟨a, r, hr, b⟩
        · exact .inl ⟨a, .eps h3 b⟩
        · exact .inr ⟨a, r, hr, .eps h3 b⟩
      · subst h5
        obtain ⟨rfl, rfl⟩ := hend h2
        exact .inr ⟨rfl, q, h3, .refl q⟩
    | @step q c q' w p hc h1 h2 ih =>
      intro hq
      rcases (he _ _ _).1 h1 with h3 | ⟨-, h4, -⟩
      · rcases ih (h.edge_lt h3).2.2 with ⟨a, b⟩ | ⟨a, r, hr, b⟩
        · exact .inl ⟨a, .step hc h3 b⟩
        · exact .inr ⟨a, r, hr, .step hc h3 b⟩
      · exact absurd h4 hc
  unfold Fsm.Lang
  rw [hi]
  ext w
  rw [Fsm.mem_langFrom, Fsm.mem_langFrom, hf]
  constructor
  · rintro ⟨p, hp, hr⟩
    obtain rfl := Finset.mem_singleton.1 hp
    rcases key hr h.init_lt with ⟨h1, -⟩ | ⟨-, r, hr, h2⟩
    · omega
    · exact ⟨r, hr, h2⟩
  · rintro ⟨r, hr, h1⟩
    refine ⟨f.size, Finset.mem_singleton_self _, ?_⟩
    have h2 : Run (setRepetitionMark f b).Edge f.initial w r := run_mono (fun q c p h => (he q c p).2 (.inl h)) h1
    have h3 : Run (setRepetitionMark f b).Edge r [] f.size := .eps ((he _ _ _).2 (.inr ⟨hr, rfl, rfl⟩)) (.refl _)
    have := h2.trans h3
    rwa [List.append_nil] at this

theorem setRepetitionMark_tags (f : Fsm) (b : Bool) : (setRepetitionMark f b).tags = f.tags := by
  obtain ⟨o, e, -⟩ := markFinals_spec ((f.resize (f.size + 1)).connectFinal f.size Epsilon) f.size (if b then 4 else 8)
  have hdef : setRepetitionMark f b = notDetermined ((markFinals ((f.resize (f.size + 1)).connectFinal f.size Epsilon) f.size (if b then 4 else 8)).clearFinal.setFinal f.size true) := rfl
  rw [hdef, e]
  show ((f.resize (f.size + 1)).connectFinal f.size Epsilon).tags = f.tags
  unfold Fsm.connectFinal; exact (Fsm.connectAll_tags _ _)

end Capture
end Pire
