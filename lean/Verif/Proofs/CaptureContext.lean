import Verif.Proofs.CaptureMark
import Verif.Proofs.FsmImport
import Verif.Proofs.FsmOps
import Verif.Spec.Capture

/-!
# A capture group inside a pattern

Runs that remember the actions they met, and what they look like for a pattern with one capture group in it.
-/

namespace Pire
namespace Capture
open Spec

/-- A run with its actions. -/
inductive Steps (E : Nat → Nat → Nat → Prop) (A : Nat → Nat → Nat) : Nat → List (Nat × Nat) → Nat → Prop
  | nil (q) : Steps E A q [] q
  | cons {q c p l r} : E q c p → Steps E A p l r → Steps E A q ((c, A q p) :: l) r

/-- The text a run reads. -/
def letters (l : List (Nat × Nat)) : List Nat := (l.map Prod.fst).filter (· ≠ 257)

@[simp] theorem letters_nil : letters [] = [] := rfl
@[simp] theorem letters_append (l m : List (Nat × Nat)) : letters (l ++ m) = letters l ++ letters m := by simp [letters]
@[simp] theorem letters_eps (a : Nat) (l : List (Nat × Nat)) : letters ((257, a) :: l) = letters l := by simp [letters]
theorem letters_cons {c : Nat} (hc : c ≠ 257) (a : Nat) (l : List (Nat × Nat)) : letters ((c, a) :: l) = c :: letters l := by
  simp [letters, hc]

variable {E : Nat → Nat → Nat → Prop} {A : Nat → Nat → Nat}

theorem Steps.run {q p : Nat} {l : List (Nat × Nat)} (h : Steps E A q l p) : Run E q (letters l) p := by
  induction h with
  | nil q => exact .refl q
  | @cons q c p l r he _ ih =>
    by_cases hc : c = 257
    · subst hc; rw [letters_eps]; exact .eps he ih
    · rw [letters_cons hc]; exact .step hc he ih

theorem Steps.append {q p r : Nat} {l m : List (Nat × Nat)} (h : Steps E A q l p) (h' : Steps E A p m r) : Steps E A q (l ++ m) r := by
  induction h with
  | nil q => exact h'
  | cons he _ ih => exact .cons he (ih h')

theorem Steps.snoc {q p r c : Nat} {l : List (Nat × Nat)} (h : Steps E A q l p) (he : E p c r) : Steps E A q (l ++ [(c, A p r)]) r :=
  h.append (.cons he (.nil _))

/-- The action says neither "begin" nor "end". -/
def Silent (a : Nat) : Prop := a.testBit 0 = false ∧ a.testBit 1 = false

/-- Every run to a final state begins the capture, reads a word of `L`, and ends the capture. -/
def Brackets (g : Fsm) (L : Language Nat) : Prop :=
  ∀ l p, Steps g.Edge g.output g.initial l p → p ∈ g.finals → ∃ l₁ m l₂, l = l₁ ++ (257, 1) :: m ++ (257, 2) :: l₂ ∧ letters m ∈ L ∧
    (∀ x ∈ l₁, Silent x.2) ∧ ∀ x ∈ m, Silent x.2

/-- Outputs are stored for states of the automaton only. -/
def OutIn (f : Fsm) : Prop := ∀ q p v, (f.outputs q).bind (· p) = some v → q < f.size ∧ p < f.size

theorem OutIn.zero {f : Fsm} (h : OutIn f) {q p : Nat} (hq : f.size ≤ q ∨ f.size ≤ p) : f.output q p = 0 := by
  unfold Fsm.output
  cases e : (f.outputs q).bind (· p) with
  | none => rfl
  | some v => have := h q p v e; omega

/-- An automaton without capture actions. -/
structure Quiet (f : Fsm) : Prop where
  wf : f.WF
  raw : f.Raw
  out : OutIn f
  silent : ∀ q p, Silent (f.output q p)

theorem concat_outputs (f rhs : Fsm) : (f.concat rhs).outputs = match rhs.outputs rhs.initial with
    | none => (f.import_ rhs).outputs
    | some m => fun p =>
        if p ∈ f.finals ∧ ∃ q < rhs.size, (m q).isSome then
          some fun q =>
            match ((f.import_ rhs).outputs p).bind (· q) with
            | some v => some v
            | none => if f.size ≤ q then m (q - f.size) else none
        else (f.import_ rhs).outputs p := by
  have k1 : ∀ (l : List Nat) (n : Nat) (f : Fsm), (l.foldl (fun h q => h.setFinal (q + n) true) f).outputs = f.outputs := by
    intro l n
    induction l with
    | nil => intro f; rfl
    | cons d l ih => intro f; rw [List.foldl_cons, ih]; rfl
  have k2 : ∀ (l : List (Nat × Nat)) (f : Fsm), (l.foldl (fun h e => h.connectFinal e.2 e.1) f).outputs = f.outputs := by
    intro l
    induction l with
    | nil => intro f; rfl
    | cons d l ih =>
      intro f; rw [List.foldl_cons, ih]
      exact Fsm.connectAll_outputs _ _
  unfold Fsm.concat
  dsimp only [Fsm.clearHints]
  rw [k1]
  dsimp only [Fsm.clearFinal]
  obtain ⟨-, -, e3, -⟩ := Fsm.foldl_cf_fields (Fsm.rowEdges ((f.import_ rhs).tr (f.size + rhs.initial))) (f.import_ rhs)
  rw [k2, e3]
  rfl

theorem import_stored {f rhs : Fsm} (hf : OutIn f) (hr : OutIn rhs) (q p : Nat) : ((f.import_ rhs).outputs q).bind (· p) =
    if q < f.size then (f.outputs q).bind (· p) else if f.size ≤ p then (rhs.outputs (q - f.size)).bind (· (p - f.size)) else none := by
  have h0 : f.size ≤ q → (f.outputs q).bind (· p) = none := by
    intro hq
    cases e : (f.outputs q).bind (· p) with
    | none => rfl
    | some v => have := hf q p v e; omega
  show (((if f.size ≤ q then _ else _) : Option (Nat → Option Nat))).bind _ = _
  by_cases hq : f.size ≤ q
  · rw [if_pos hq, if_neg (by omega)]
    cases e : rhs.outputs (q - f.size) with
    | none => simp only [Option.bind_none, h0 hq, ite_self]
    | some m => simp only [Option.bind_some, h0 hq]
  · rw [if_neg hq, if_pos (by omega)]

theorem concat_stored {f rhs : Fsm} (h : f.WF) (hf : OutIn f) (hr : OutIn rhs) (q p : Nat) : ((f.concat rhs).outputs q).bind (· p) =
    if q < f.size then
      if p < f.size then (f.outputs q).bind (· p)
      else if q ∈ f.finals then (rhs.outputs rhs.initial).bind (· (p - f.size)) else none
    else if f.size ≤ p then (rhs.outputs (q - f.size)).bind (· (p - f.size)) else none := by
  have h0 : f.size ≤ p → (f.outputs q).bind (· p) = none := by
    intro hp
    cases e : (f.outputs q).bind (· p) with
    | none => rfl
    | some v => have := hf q p v e; omega
  rw [concat_outputs]
  cases e : rhs.outputs rhs.initial with
  | none =>
    simp only []
    rw [import_stored hf hr]
    by_cases hq : q < f.size
    · rw [if_pos hq, if_pos hq]
      by_cases hp : p < f.size
      · rw [if_pos hp]
      · rw [if_neg hp, h0 (by omega)]; simp
    · rw [if_neg hq, if_neg hq]
  | some m =>
    simp only []
    by_cases hc : q ∈ f.finals ∧ ∃ q < rhs.size, (m q).isSome = true
    · have hq := h.fin_lt q hc.1
      rw [if_pos hc, Option.bind_some]
      beta_reduce
      rw [import_stored hf hr, if_pos hq, if_pos hq, if_pos hc.1]
      by_cases hp : p < f.size
      · rw [if_pos hp]
        cases (f.outputs q).bind (· p) with
        | none => exact if_neg (by omega)
        | some v => rfl
      · rw [if_neg hp, h0 (by omega)]
        exact if_pos (by omega)
    · rw [if_neg hc, import_stored hf hr]
      by_cases hq : q < f.size
      · rw [if_pos hq, if_pos hq]
        by_cases hp : p < f.size
        · rw [if_pos hp]
        · rw [if_neg hp, h0 (by omega)]
          by_cases hfin : q ∈ f.finals
          · rw [if_pos hfin, Option.bind_some]
            cases hm : m (p - f.size) with
            | none => rfl
            | some v =>
              exfalso
              have := hr rhs.initial (p - f.size) v (by rw [e]; exact hm)
              exact hc ⟨hfin, _, this.2, by rw [hm]; rfl⟩
          · rw [if_neg hfin]
      · rw [if_neg hq, if_neg hq]

theorem concat_out {f rhs : Fsm} (h : f.WF) (hr' : rhs.WF) (hf : OutIn f) (hr : OutIn rhs) (hs : (f.concat rhs).size = f.size + rhs.size) :
    OutIn (f.concat rhs) ∧ (∀ q p, q < f.size → p < f.size → (f.concat rhs).output q p = f.output q p) ∧
    (∀ q p, f.size ≤ q → f.size ≤ p → (f.concat rhs).output q p = rhs.output (q - f.size) (p - f.size)) ∧
    ∀ q p, q ∈ f.finals → f.size ≤ p → (f.concat rhs).output q p = rhs.output rhs.initial (p - f.size) := by
  have key := concat_stored h hf hr
  refine ⟨?_, ?_, ?_, ?_⟩
  · intro q p v hv
    rw [key] at hv
    rw [hs]
    split at hv
    · split at hv
      · omega
      · split at hv
        · have := hr _ _ _ hv; omega
        · cases hv
    · split at hv
      · have := hr _ _ _ hv; omega
      · cases hv
  · intro q p hq hp
    unfold Fsm.output; rw [key, if_pos hq, if_pos hp]
  · intro q p hq hp
    unfold Fsm.output; rw [key, if_neg (by omega), if_pos hp]
  · intro q p hq hp
    unfold Fsm.output; rw [key, if_pos (h.fin_lt q hq), if_neg (by omega), if_pos hq]

/-! ### Runs of the parts -/

theorem Steps.lt {f : Fsm} (h : f.WF) {q p : Nat} {l : List (Nat × Nat)} (hs : Steps f.Edge f.output q l p) (hq : q < f.size) : p < f.size := by
  induction hs with
  | nil q => exact hq
  | cons he _ ih => exact ih (h.edge_lt he).2.2

/-- A run of a concatenation is a run of the first automaton and one of the second. -/
theorem concat_steps {f g : Fsm} (h : f.WF) (hr : f.Raw) (hf : OutIn f) (h' : g.WF) (hr' : g.Raw) (hg : OutIn g) {l : List (Nat × Nat)} {p : Nat}
    (hs : Steps (f.concat g).Edge (f.concat g).output f.initial l p) (hp : p ∈ (f.concat g).finals) :
    ∃ l₁ l₂ p₁ p₂, l = l₁ ++ l₂ ∧ Steps f.Edge f.output f.initial l₁ p₁ ∧ p₁ ∈ f.finals ∧ Steps g.Edge g.output g.initial l₂ p₂ ∧ p₂ ∈ g.finals := by
  obtain ⟨c1, -, -, c2, c3, -⟩ := Fsm.concat_spec h hr.coh h' hr'.coh
  obtain ⟨-, o1, o2, o3⟩ := concat_out h h' hf hg c1
  have tail : ∀ {q l p}, Steps (f.concat g).Edge (f.concat g).output q l p → f.size ≤ q → f.size ≤ p ∧ Steps g.Edge g.output (q - f.size) l (p - f.size) := by
    intro q l p hs
    induction hs with
    | nil q => intro hq; exact ⟨hq, .nil _⟩
    | @cons q c p l r he _ ih =>
      intro hq
      rcases (c3 _ _ _).1 he with he | ⟨-, h2, he⟩ | ⟨h1, -⟩
      · have := (h.edge_lt he).1; omega
      · obtain ⟨i1, i2⟩ := ih h2
        refine ⟨i1, ?_⟩
        rw [o2 q p hq h2]
        exact .cons he i2
      · have := h.fin_lt q h1; omega
  have main : ∀ {q l p}, Steps (f.concat g).Edge (f.concat g).output q l p → q < f.size → p ∈ (f.concat g).finals →
      ∃ l₁ l₂ p₁ p₂, l = l₁ ++ l₂ ∧ Steps f.Edge f.output q l₁ p₁ ∧ p₁ ∈ f.finals ∧ Steps g.Edge g.output g.initial l₂ p₂ ∧ p₂ ∈ g.finals := by
    intro q l p hs
    induction hs with
    | nil q => intro hq hp; have := ((c2 q).1 hp).1; omega
    | @cons q c p l r he hst ih =>
      intro hq hp
      rcases (c3 _ _ _).1 he with he' | ⟨h1, -⟩ | ⟨h1, h2, he'⟩
      · have hlt := (h.edge_lt he').2.2
        obtain ⟨l₁, l₂, p₁, p₂, rfl, i1, i2⟩ := ih hlt hp
        refine ⟨(c, f.output q p) :: l₁, l₂, p₁, p₂, ?_, .cons he' i1, i2⟩
        rw [o1 q p hq hlt]; rfl
      · omega
      · obtain ⟨i1, i2⟩ := tail hst h2
        refine ⟨[], (c, g.output g.initial (p - f.size)) :: l, q, r - f.size, ?_, .nil q, h1, .cons he' i2, ((c2 r).1 hp).2⟩
        rw [o3 q p h1 h2]; rfl
  exact main hs h.init_lt hp

theorem silent_steps {f : Fsm} (h : ∀ q p, Silent (f.output q p)) {q p : Nat} {l : List (Nat × Nat)} (hs : Steps f.Edge f.output q l p) : ∀ x ∈ l, Silent x.2 := by
  induction hs with
  | nil q => simp
  | cons _ _ ih =>
    intro x hx
    rcases List.mem_cons.1 hx with rfl | hx
    · exact h _ _
    · exact ih x hx

/-- The group itself. -/
theorem brackets_mark {f : Fsm} (h : Quiet f) : Brackets (setCaptureMark f) f.Lang := by
  obtain ⟨-, hsz, hi, hf, -, -, -, -, he, ho⟩ := setCaptureMark_spec h.wf
  intro l p hs hp
  rw [hi] at hs
  rw [hf, Finset.mem_singleton] at hp
  have stuck : ∀ {q l p}, Steps (setCaptureMark f).Edge (setCaptureMark f).output q l p → q = f.size + 1 → l = [] := by
    intro q l p hs hq
    subst hq
    cases hs with
    | nil => rfl
    | cons hx _ =>
      rcases (he _ _ _).1 hx with hx | ⟨h1, -⟩ | ⟨h1, -⟩
      · have := (h.wf.edge_lt hx).1; omega
      · omega
      · have := h.wf.fin_lt _ h1; omega
  have inner : ∀ {q l p}, Steps (setCaptureMark f).Edge (setCaptureMark f).output q l p → q < f.size → p = f.size + 1 →
      ∃ m p', l = m ++ [(257, 2)] ∧ Steps f.Edge f.output q m p' ∧ p' ∈ f.finals := by
    intro q l p hs
    induction hs with
    | nil q => intro hq hp; omega
    | @cons q c p l r hx hst ih =>
      intro hq hp
      rcases (he _ _ _).1 hx with hx' | ⟨h1, -⟩ | ⟨h1, rfl, rfl⟩
      · have hlt := (h.wf.edge_lt hx').2.2
        obtain ⟨m, p', rfl, i1, i2⟩ := ih hlt hp
        refine ⟨(c, f.output q p) :: m, p', ?_, .cons hx' i1, i2⟩
        rw [ho, if_neg (by omega), if_neg (by omega)]; rfl
      · omega
      · refine ⟨[], q, ?_, .nil q, h1⟩
        rw [stuck hst rfl, ho, if_pos ⟨h1, rfl⟩]; rfl
  cases hs with
  | nil => omega
  | cons hx hst =>
    rcases (he _ _ _).1 hx with hx | ⟨-, rfl, rfl⟩ | ⟨h1, -⟩
    · have := (h.wf.edge_lt hx).1; omega
    · obtain ⟨m, p', rfl, i1, i2⟩ := inner hst h.wf.init_lt hp
      refine ⟨[], m, [], ?_, ⟨p', i2, i1.run⟩, by simp, silent_steps h.silent i1⟩
      rw [ho, if_neg (fun hh => by have := h.wf.init_lt; have := h.wf.fin_lt _ hh.1; omega), if_pos ⟨rfl, rfl⟩]
      simp
    · have := h.wf.fin_lt _ h1; omega

/-- A pattern with the group `f` in it. -/
inductive Holds (f : Fsm) : Fsm → Prop
  | group : Holds f (setCaptureMark f)
  | left {a g} : Quiet a → Holds f g → Holds f (a.concat g)
  | right {g b} : Holds f g → Quiet b → Holds f (g.concat b)
  | before {g} : Holds f g → Holds f g.prependAnything
  | after {g} : Holds f g → Holds f g.appendAnything

theorem OutIn.setOutput {f : Fsm} (h : OutIn f) {q p : Nat} (hq : q < f.size) (hp : p < f.size) (v : Nat) : OutIn (setOutput f q p v) := by
  intro q' p' v' hv
  unfold Capture.setOutput at hv
  dsimp only at hv
  show q' < f.size ∧ p' < f.size
  by_cases hq' : q' = q
  · subst hq'
    refine ⟨hq, ?_⟩
    rw [Function.update_self, Option.bind_some] at hv
    by_cases hp' : p' = p
    · rw [hp']; exact hp
    · rw [Function.update_of_ne hp'] at hv
      cases e : f.outputs q' with
      | none => rw [e] at hv; cases hv
      | some m => rw [e] at hv; exact (h q' p' v' (by rw [e]; exact hv)).2
  · rw [Function.update_of_ne hq'] at hv
    exact h q' p' v' hv

theorem OutIn.markFinals {f : Fsm} (hw : ∀ q ∈ f.finals, q < f.size) (h : OutIn f) {p : Nat} (hp : p < f.size) (v : Nat) : OutIn (markFinals f p v) := by
  have key : ∀ (l : List Nat) (g : Fsm), OutIn g → p < g.size → (∀ q ∈ l, q < g.size) → OutIn (l.foldl (fun g q => Capture.setOutput g q p v) g) := by
    intro l
    induction l with
    | nil => intro g hg _ _; exact hg
    | cons q l ih =>
      intro g hg hp hl
      exact ih _ (hg.setOutput (hl q (by simp)) hp v) hp fun x hx => hl x (by simp [hx])
  exact key _ _ h hp fun q hq => hw q (mem_elems.1 hq)

theorem mark_out {f : Fsm} (hw : f.WF) (ho : OutIn f) : OutIn (setCaptureMark f) := by
  obtain ⟨g, hg⟩ : ∃ g, g = (((f.resize (f.size + 2)).connect f.size f.initial Epsilon).connectFinal (f.size + 1) Epsilon) := ⟨_, rfl⟩
  have gs : g.size = f.size + 2 := by rw [hg, Fsm.connectFinal_size]; rfl
  have gi : g.initial = f.initial := by rw [hg, Fsm.connectFinal_initial]; rfl
  have gf : g.finals = f.finals := by rw [hg, Fsm.connectFinal_finals]; rfl
  have go : g.outputs = f.outputs := by rw [hg]; unfold Fsm.connectFinal; exact (Fsm.connectAll_outputs _ _)
  have h1 : OutIn g := by
    intro q p v hv
    rw [go] at hv
    have := ho q p v hv
    rw [gs]; omega
  have h2 := h1.setOutput (q := f.size) (p := g.initial) (by rw [gs]; omega) (by rw [gs, gi]; have := hw.init_lt; omega) 1
  have h3 := h2.markFinals (p := f.size + 1) (by intro q hq; have : q ∈ f.finals := by rw [← gf]; exact hq
                                                 have := hw.fin_lt q this; show q < g.size; rw [gs]; omega) (by show _ < g.size; rw [gs]; omega) 2
  have hdef : setCaptureMark f = notDetermined ((((markFinals (setOutput g f.size g.initial 1) (f.size + 1) 2).setInitial f.size).clearFinal).setFinal (f.size + 1) true) := by
    rw [hg]; rfl
  rw [hdef]
  exact h3

/-- Any number of letters at the beginning or at the end of a run that say nothing. -/
theorem Brackets.wrap {g g' : Fsm} {L : Language Nat} (h : Brackets g L)
    (hs : ∀ l p, Steps g'.Edge g'.output g'.initial l p → p ∈ g'.finals → ∃ l₁ m l₂ p', l = l₁ ++ m ++ l₂ ∧ (∀ x ∈ l₁, Silent x.2) ∧
      Steps g.Edge g.output g.initial m p' ∧ p' ∈ g.finals) : Brackets g' L := by
  intro l p hl hp
  obtain ⟨l₁, m, l₂, p', rfl, h1, h2, h3⟩ := hs l p hl hp
  obtain ⟨k₁, k, k₂, rfl, h4, h5, h6⟩ := h m p' h2 h3
  refine ⟨l₁ ++ k₁, k, k₂ ++ l₂, by simp, h4, ?_, h6⟩
  intro x hx
  rcases List.mem_append.1 hx with hx | hx
  · exact h1 x hx
  · exact h5 x hx

theorem silent_zero : Silent 0 := ⟨rfl, rfl⟩

theorem prepend_steps {g : Fsm} (h : g.WF) (ho : OutIn g) {l : List (Nat × Nat)} {p : Nat} (hs : Steps g.prependAnything.Edge g.prependAnything.output g.size l p) (hp : p < g.size) :
    ∃ l₁ m, l = l₁ ++ m ∧ (∀ x ∈ l₁, Silent x.2) ∧ Steps g.Edge g.output g.initial m p := by
  have hout : g.prependAnything.output = g.output := by
    have : g.prependAnything.outputs = g.outputs := by simp [Fsm.prependAnything, Fsm.resize]
    funext q p; unfold Fsm.output; rw [this]
  rw [hout] at hs
  have inside : ∀ {q l p}, Steps g.prependAnything.Edge g.output q l p → q < g.size → Steps g.Edge g.output q l p := by
    intro q l p hs
    induction hs with
    | nil q => intro _; exact .nil q
    | cons he _ ih =>
      intro hq
      rcases (Fsm.prependAnything_edge h _ _ _).1 he with he | ⟨h1, -⟩ | ⟨h1, -⟩
      · exact .cons he (ih (h.edge_lt he).2.2)
      · omega
      · omega
  have main : ∀ {q l p}, Steps g.prependAnything.Edge g.output q l p → q = g.size → p < g.size →
      ∃ l₁ m, l = l₁ ++ m ∧ (∀ x ∈ l₁, Silent x.2) ∧ Steps g.Edge g.output g.initial m p := by
    intro q l p hs
    induction hs with
    | nil q => intro h1 h2; omega
    | @cons q c p l r he hst ih =>
      intro hq hp
      have hz : Silent (g.output q p) := by rw [ho.zero (.inl (by omega))]; exact silent_zero
      rcases (Fsm.prependAnything_edge h _ _ _).1 he with he | ⟨-, h1, -⟩ | ⟨-, h1, -⟩
      · have := (h.edge_lt he).1; omega
      · obtain ⟨l₁, m, rfl, i1, i2⟩ := ih h1 hp
        refine ⟨(c, g.output q p) :: l₁, m, rfl, ?_, i2⟩
        intro x hx
        rcases List.mem_cons.1 hx with rfl | hx
        · exact hz
        · exact i1 x hx
      · refine ⟨[(c, g.output q p)], l, rfl, ?_, ?_⟩
        · intro x hx; rw [List.mem_singleton.1 hx]; exact hz
        · subst h1; exact inside hst h.init_lt
  exact main hs rfl hp

theorem append_steps {g : Fsm} (h : g.WF) {q p : Nat} {l : List (Nat × Nat)} (hs : Steps g.appendAnything.Edge g.appendAnything.output q l p) (hq : q < g.size) (hp : p = g.size) :
    ∃ m l₂ p', l = m ++ l₂ ∧ Steps g.Edge g.output q m p' ∧ p' ∈ g.finals := by
  have hout : g.appendAnything.output = g.output := by
    have : g.appendAnything.outputs = g.outputs := by simp [Fsm.appendAnything, Fsm.setFinal, Fsm.clearFinal, Fsm.resize, Fsm.connectFinal, Fsm.clearHints]
    funext q p; unfold Fsm.output; rw [this]
  rw [hout] at hs
  induction hs with
  | nil q => omega
  | @cons q c p l r he hst ih =>
    rcases (Fsm.appendAnything_edge h _ _ _).1 he with he | ⟨h1, -⟩ | ⟨h1, -⟩
    · obtain ⟨m, l₂, p', rfl, i1, i2⟩ := ih (h.edge_lt he).2.2 hp
      exact ⟨(c, g.output q p) :: m, l₂, p', rfl, .cons he i1, i2⟩
    · omega
    · exact ⟨[], _, q, rfl, .nil q, h1⟩

/-- Every pattern with one group in it brackets what the group reads. -/
theorem Holds.brackets {f g : Fsm} (h : Quiet f) (hg : Holds f g) : g.WF ∧ g.Raw ∧ OutIn g ∧ Brackets g f.Lang := by
  induction hg with
  | group =>
    obtain ⟨hw, hs, -, -, hl, -⟩ := setCaptureMark_spec h.wf
    exact ⟨hw, by unfold Fsm.Raw; rw [hl]; exact h.raw, mark_out h.wf h.out, brackets_mark h⟩
  | @left a g ha _ ih =>
    obtain ⟨h1, h2, h3, h4⟩ := ih
    obtain ⟨c1, c2, c3, -, -, c4⟩ := Fsm.concat_spec ha.wf ha.raw.coh h1 h2.coh
    refine ⟨c4, c3, (concat_out ha.wf h1 ha.out h3 c1).1, h4.wrap ?_⟩
    intro l p hs hp
    rw [c2] at hs
    obtain ⟨l₁, l₂, p₁, p₂, rfl, i1, i2, i3, i4⟩ := concat_steps ha.wf ha.raw ha.out h1 h2 h3 hs hp
    exact ⟨l₁, l₂, [], p₂, by simp, silent_steps ha.silent i1, i3, i4⟩
  | @right g b _ hb ih =>
    obtain ⟨h1, h2, h3, h4⟩ := ih
    obtain ⟨c1, c2, c3, -, -, c4⟩ := Fsm.concat_spec h1 h2.coh hb.wf hb.raw.coh
    refine ⟨c4, c3, (concat_out h1 hb.wf h3 hb.out c1).1, h4.wrap ?_⟩
    intro l p hs hp
    rw [c2] at hs
    obtain ⟨l₁, l₂, p₁, p₂, rfl, i1, i2, i3, i4⟩ := concat_steps h1 h2 h3 hb.wf hb.raw hb.out hs hp
    exact ⟨[], l₁, l₂, p₁, by simp, by simp, i1, i2⟩
  | @before g _ ih =>
    obtain ⟨h1, h2, h3, h4⟩ := ih
    refine ⟨h1.prependAnything, by unfold Fsm.Raw; rw [Fsm.prependAnything_letters]; exact h2, ?_, h4.wrap ?_⟩
    · intro q p v hv
      have : g.prependAnything.outputs = g.outputs := by simp [Fsm.prependAnything, Fsm.resize]
      rw [this] at hv
      have := h3 q p v hv
      rw [Fsm.prependAnything_size]; omega
    · intro l p hs hp
      rw [Fsm.prependAnything_initial] at hs
      rw [Fsm.prependAnything_finals] at hp
      obtain ⟨l₁, m, rfl, i1, i2⟩ := prepend_steps h1 h3 hs (h1.fin_lt p hp)
      exact ⟨l₁, m, [], p, by simp, i1, i2, hp⟩
  | @after g _ ih =>
    obtain ⟨h1, h2, h3, h4⟩ := ih
    refine ⟨h1.appendAnything, by unfold Fsm.Raw; rw [Fsm.appendAnything_letters]; exact h2, ?_, h4.wrap ?_⟩
    · intro q p v hv
      have : g.appendAnything.outputs = g.outputs := by simp [Fsm.appendAnything, Fsm.setFinal, Fsm.clearFinal, Fsm.resize, Fsm.connectFinal, Fsm.clearHints]
      rw [this] at hv
      have := h3 q p v hv
      rw [Fsm.appendAnything_size]; omega
    · intro l p hs hp
      rw [Fsm.appendAnything_initial] at hs
      rw [Fsm.appendAnything_finals, Finset.mem_singleton] at hp
      obtain ⟨m, l₂, p', rfl, i1, i2⟩ := append_steps h1 hs h1.init_lt hp
      exact ⟨[], m, l₂, p', by simp, by simp, i1, i2⟩

/-! ### Threads are runs with actions -/

/-- The actions of a run with the number of letters read by then; `k` letters were read before. -/
def trace : Nat → List (Nat × Nat) → List (Nat × Nat)
  | _, [] => []
  | k, (c, a) :: l => (if c = 257 then k else k + 1, a) :: trace (if c = 257 then k else k + 1) l

theorem trace_append (l m : List (Nat × Nat)) : ∀ k, trace k (l ++ m) = trace k l ++ trace (k + (letters l).length) m := by
  induction l with
  | nil => intro k; rfl
  | cons x l ih =>
    obtain ⟨c, a⟩ := x
    intro k
    by_cases hc : c = 257
    · subst hc
      rw [List.cons_append, trace, ih, letters_eps]
      simp [trace]
    · rw [List.cons_append, trace, ih, letters_cons hc, if_neg hc, List.length_cons, trace, if_neg hc, List.cons_append]
      congr 3
      omega

theorem thread_steps {S : Nat → Prop} {w : List Nat} {q : Nat} {tr : List (Nat × Nat)} (h : Thread E A S w q tr) :
    ∃ r p l, S r ∧ E r 258 p ∧ Steps E A p l q ∧ letters l = w ∧ tr = (0, A r p) :: trace 0 l := by
  induction h with
  | start hS hE => exact ⟨_, _, [], hS, hE, .nil _, rfl, rfl⟩
  | @eps w q tr p _ he ih =>
    obtain ⟨r, p', l, h1, h2, h3, h4, h5⟩ := ih
    refine ⟨r, p', l ++ [(257, A q p)], h1, h2, h3.snoc he, by simp [h4], ?_⟩
    rw [h5, trace_append, h4]; simp [trace]
  | @step w q tr c p _ hc he ih =>
    obtain ⟨r, p', l, h1, h2, h3, h4, h5⟩ := ih
    refine ⟨r, p', l ++ [(c, A q p)], h1, h2, h3.snoc he, by rw [letters_append, letters_cons hc, h4]; rfl, ?_⟩
    rw [h5, trace_append, h4]; simp [trace, hc]

end Capture
end Pire
