import Verif.Proofs.CaptureChain
import Verif.Proofs.CaptureEval

/-!
# The automata of sequences of items are chains (C60)
-/

namespace Pire
namespace Capture
open Spec Pire.Lex Pire.Enc Pire.Parse

/-! ### Moving chains -/

section Move
variable {E E' : Nat → Nat → Nat → Prop} {A A' : Nat → Nat → Nat} {G G' : Nat → Prop} {B B' : Nat → Prop} {P P' : Nat → Nat → Prop}

theorem Leads.mono {m m' q r a : Nat} (h : Leads E A G m q r a) (hm : m' ≤ m) : Leads E A G m' q r a := ⟨hm.trans h.1, h.2⟩
theorem Forks.mono {m m' q a e : Nat} (h : Forks E A G m q a e) (hm : m' ≤ m) : Forks E A G m' q a e := ⟨hm.trans h.1, h.2⟩

theorem Ent.mono {es : List Elem} {m m' p : Nat} (h : Ent E A G B es m p) (hm : m' ≤ m) : Ent E A G B es m' p := by
  cases es with
  | nil => exact ⟨hm.trans h.1, h.2⟩
  | cons x es =>
    cases x with
    | opn => obtain ⟨r, h1, h2⟩ := h; exact ⟨r, h1.mono hm, h2⟩
    | cls => obtain ⟨r, h1, h2⟩ := h; exact ⟨r, h1.mono hm, h2⟩
    | item it =>
      obtain ⟨hs, h⟩ := h
      refine ⟨hs, ?_⟩
      split at h
      · obtain ⟨a, e, h1, h2⟩ := h
        rw [if_pos (by assumption)]
        exact ⟨a, e, h1.mono hm, h2⟩
      · rw [if_neg (by assumption)]
        exact h

/-- The same transitions from another state. -/
theorem Ent.reroot {es : List Elem} {m p p' : Nat} (h : Ent E A G B es m p) (hne : es ≠ []) (hG : G p') (hE : ∀ c q, E p' c q ↔ E p c q) (hA : ∀ c q, E p c q → A p' q = A p q) :
    Ent E A G B es m p' := by
  have row : ∀ {R}, Row E G p R → Row E G p' R := fun h => ⟨hG, fun c q => (hE c q).trans (h.2 c q)⟩
  have leads : ∀ {m r a}, Leads E A G m p r a → Leads E A G m p' r a := fun h => ⟨h.1, row h.2.1, by rw [hA 257 _ ((h.2.1.2 _ _).2 ⟨rfl, rfl⟩)]; exact h.2.2⟩
  cases es with
  | nil => exact absurd rfl hne
  | cons x es =>
    cases x with
    | opn => obtain ⟨r, h1, h2⟩ := h; exact ⟨r, leads h1, h2⟩
    | cls => obtain ⟨r, h1, h2⟩ := h; exact ⟨r, leads h1, h2⟩
    | item it =>
      obtain ⟨hs, h⟩ := h
      refine ⟨hs, ?_⟩
      split at h
      · obtain ⟨a, e, h1, h2⟩ := h
        rw [if_pos (by assumption)]
        refine ⟨a, e, ⟨h1.1, h1.2.1, row h1.2.2.1, ?_, ?_⟩, h2⟩
        · rw [hA 257 _ ((h1.2.2.1.2 _ _).2 ⟨rfl, .inl rfl⟩)]; exact h1.2.2.2.1
        · rw [hA 257 _ ((h1.2.2.1.2 _ _).2 ⟨rfl, .inr rfl⟩)]; exact h1.2.2.2.2
      · rw [if_neg (by assumption)]
        obtain ⟨d, h1, h2⟩ := h
        refine ⟨d, ⟨row h1.1, fun hn => ?_⟩, h2⟩
        obtain ⟨c, hc⟩ := id hn
        rw [hA c _ ((h1.1.2 _ _).2 ⟨hc, rfl⟩)]
        exact h1.2 hn

variable {k : Nat}

/-- The transitions of the good states are those of another automaton, `k` states further. -/
structure Moved (E E' : Nat → Nat → Nat → Prop) (A A' : Nat → Nat → Nat) (G G' : Nat → Prop) (k : Nat) : Prop where
  edge : ∀ q, G q → ∀ c p, E' (q + k) c p ↔ ∃ p', p = p' + k ∧ E q c p'
  out : ∀ q, G q → ∀ c p, E q c p → A' (q + k) (p + k) = A q p
  good : ∀ q, G q → G' (q + k)

theorem Moved.reads (h : Moved E E' A A' G G' k) {q d : Nat} {bs : Finset Nat} (hr : ReadsOn E A G q bs d) : ReadsOn E' A' G' (q + k) bs (d + k) := by
  refine ⟨⟨h.good q hr.1.1, fun c p => ?_⟩, fun hn => ?_⟩
  · rw [h.edge q hr.1.1]
    constructor
    · rintro ⟨p', rfl, h1⟩
      obtain ⟨h1, rfl⟩ := (hr.1.2 _ _).1 h1
      exact ⟨h1, rfl⟩
    · rintro ⟨h1, rfl⟩
      exact ⟨d, rfl, (hr.1.2 _ _).2 ⟨h1, rfl⟩⟩
  · obtain ⟨c, hc⟩ := id hn
    rw [h.out q hr.1.1 c d ((hr.1.2 _ _).2 ⟨hc, rfl⟩)]
    exact hr.2 hn

theorem Moved.leads (h : Moved E E' A A' G G' k) {m q r a : Nat} (hr : Leads E A G m q r a) : Leads E' A' G' (m + k) (q + k) (r + k) a := by
  refine ⟨Nat.add_le_add_right hr.1 k, ⟨h.good q hr.2.1.1, fun c p => ?_⟩, ?_⟩
  · rw [h.edge q hr.2.1.1]
    constructor
    · rintro ⟨p', rfl, h1⟩
      obtain ⟨h1, rfl⟩ := (hr.2.1.2 _ _).1 h1
      exact ⟨h1, rfl⟩
    · rintro ⟨h1, rfl⟩
      exact ⟨r, rfl, (hr.2.1.2 _ _).2 ⟨h1, rfl⟩⟩
  · rw [h.out q hr.2.1.1 257 r ((hr.2.1.2 _ _).2 ⟨rfl, rfl⟩)]
    exact hr.2.2

theorem Moved.forks (h : Moved E E' A A' G G' k) {m q a e : Nat} (hr : Forks E A G m q a e) : Forks E' A' G' (m + k) (q + k) (a + k) (e + k) := by
  refine ⟨Nat.add_le_add_right hr.1 k, Nat.add_lt_add_right hr.2.1 k, ⟨h.good q hr.2.2.1.1, fun c p => ?_⟩, ?_, ?_⟩
  · rw [h.edge q hr.2.2.1.1]
    constructor
    · rintro ⟨p', rfl, h1⟩
      obtain ⟨h1, rfl | rfl⟩ := (hr.2.2.1.2 _ _).1 h1
      · exact ⟨h1, .inl rfl⟩
      · exact ⟨h1, .inr rfl⟩
    · rintro ⟨h1, rfl | rfl⟩
      · exact ⟨a, rfl, (hr.2.2.1.2 _ _).2 ⟨h1, .inl rfl⟩⟩
      · exact ⟨e, rfl, (hr.2.2.1.2 _ _).2 ⟨h1, .inr rfl⟩⟩
  · rw [h.out q hr.2.2.1.1 257 a ((hr.2.2.1.2 _ _).2 ⟨rfl, .inl rfl⟩)]
    exact hr.2.2.2.1
  · rw [h.out q hr.2.2.1.1 257 e ((hr.2.2.1.2 _ _).2 ⟨rfl, .inr rfl⟩)]
    exact hr.2.2.2.2

theorem Moved.exit (h : Moved E E' A A' G G' k) (hP : ∀ m p, P m p → P' (m + k) (p + k)) {it : Item} {m e : Nat} (hr : Exit E A G P m it e) : Exit E' A' G' P' (m + k) it (e + k) := by
  obtain ⟨r, h1, h2⟩ := hr
  refine ⟨r + k, h.leads h1, ?_⟩
  have := hP _ _ h2
  rwa [show r + 1 + k = r + k + 1 by omega] at this

theorem Moved.after (h : Moved E E' A A' G G' k) (hP : ∀ m p, P m p → P' (m + k) (p + k)) {it : Item} {d : Nat} (hr : After E A G P it d) : After E' A' G' P' it (d + k) := by
  unfold After at hr ⊢
  cases hh : it.hi with
  | some j =>
    rw [hh] at hr
    dsimp only at hr ⊢
    split at hr
    · rw [if_pos (by assumption)]
      have := h.exit hP hr
      rwa [show d + 1 + k = d + k + 1 by omega] at this
    · rw [if_neg (by assumption)]
      have := hP _ _ hr
      rwa [show d + 1 + k = d + k + 1 by omega] at this
  | none =>
    rw [hh] at hr
    dsimp only at hr ⊢
    obtain ⟨a, e, s, f1, h1, h2, r1, f2, h3, h4, hex⟩ := hr
    have hex' := h.exit hP hex
    rw [show e + 1 + k = e + k + 1 by omega] at hex'
    exact ⟨a + k, e + k, s + k, (h.forks f1).mono (Nat.zero_le _), by omega, by omega, h.reads r1, (h.forks f2).mono (Nat.zero_le _), by omega, by omega, hex'⟩

theorem Moved.rd (h : Moved E E' A A' G G' k) (hP : ∀ m p, P m p → P' (m + k) (p + k)) {it : Item} {a : Nat} (hr : Rd E A G P it a) : Rd E' A' G' P' it (a + k) := by
  obtain ⟨d, h1, h2⟩ := hr
  exact ⟨d + k, h.reads h1, h.after hP h2⟩

/-- A chain, and another one that begins at its end. -/
theorem Moved.ent (h : Moved E E' A A' G G' k) {z : Nat} {es' : List Elem} (hz : Ent E' A' G' B' es' (z + k + 1) (z + k)) : ∀ (es : List Elem) (m p : Nat),
    Ent E A G (· = z) es m p → Ent E' A' G' B' (es ++ es') (m + k) (p + k) := by
  intro es
  induction es with
  | nil =>
    rintro m p ⟨h1, rfl⟩
    exact hz.mono (by omega)
  | cons x es ih =>
    intro m p hr
    cases x with
    | opn =>
      obtain ⟨r, h1, h2⟩ := hr
      refine ⟨r + k, h.leads h1, ?_⟩
      have := ih _ _ h2
      rwa [show r + 1 + k = r + k + 1 by omega] at this
    | cls =>
      obtain ⟨r, h1, h2⟩ := hr
      refine ⟨r + k, h.leads h1, ?_⟩
      have := ih _ _ h2
      rwa [show r + 1 + k = r + k + 1 by omega] at this
    | item it =>
      obtain ⟨hs, hr⟩ := hr
      refine ⟨hs, ?_⟩
      split at hr
      · obtain ⟨a, e, h1, h2, h3⟩ := hr
        rw [if_pos (by assumption)]
        have h3 := h.exit ih h3
        rw [show e + 1 + k = e + k + 1 by omega] at h3
        exact ⟨a + k, e + k, h.forks h1, h.rd ih h2, h3⟩
      · rw [if_neg (by assumption)]
        exact h.rd ih hr

end Move

/-! ### Automata -/

/-- All states but the last. -/
def Inner (f : Fsm) (z q : Nat) : Prop := q ≠ z ∧ q < f.size

/-- The automaton is a chain that ends in `z`. -/
structure Chain (f : Fsm) (z m : Nat) (es : List Elem) : Prop where
  wf : f.WF
  raw : f.Raw
  out : OutIn f
  fin : f.finals = {z}
  stop : ∀ c p, ¬ f.Edge z c p
  ent : Ent f.Edge f.output (Inner f z) (· = z) es m f.initial

variable {f g : Fsm} {z z' m m' : Nat} {es es' : List Elem}

theorem Chain.lt (h : Chain f z m es) : z < f.size := h.wf.fin_lt z (by rw [h.fin]; simp)

theorem Chain.concat (h : Chain f z m es) (h' : Chain g z' m' es') (hne : es' ≠ []) : Chain (f.concat g) (z' + f.size) m (es ++ es') ∧ (f.concat g).initial = f.initial := by
  obtain ⟨c1, c2, c3, c4, c5, c6⟩ := Fsm.concat_spec h.wf h.raw.coh h'.wf h'.raw.coh
  have co := concat_output h.wf h.out h'.out
  have hzl := h.lt
  have hzl' := h'.lt
  have moved' : Moved g.Edge (f.concat g).Edge g.output (f.concat g).output (Inner g z') (Inner (f.concat g) (z' + f.size)) f.size := by
    refine ⟨fun q hq c p => ?_, fun q hq c p he => ?_, fun q hq => ⟨?_, ?_⟩⟩
    · rw [c5]
      constructor
      · rintro (he | ⟨-, h2, he⟩ | ⟨h1, -⟩)
        · have := (h.wf.edge_lt he).1; omega
        · exact ⟨p - f.size, by omega, by rwa [Nat.add_sub_cancel] at he⟩
        · have := h.wf.fin_lt _ h1; omega
      · rintro ⟨p', rfl, he⟩
        exact .inr (.inl ⟨by omega, by omega, by rwa [Nat.add_sub_cancel, Nat.add_sub_cancel]⟩)
    · rw [co, if_neg (by omega), if_pos (by omega), Nat.add_sub_cancel, Nat.add_sub_cancel]
    · have := hq.1; omega
    · rw [c1]; have := hq.2; omega
  have e1 := moved'.ent (es' := []) (B' := (· = z' + f.size)) ⟨le_rfl, rfl⟩ es' m' g.initial h'.ent
  rw [List.append_nil] at e1
  have e2 := e1.reroot (p' := z) hne ⟨by omega, by rw [c1]; omega⟩ (fun c q => by
    rw [c5, c5]
    constructor
    · rintro (he | ⟨h1, -⟩ | ⟨-, h2, he⟩)
      · exact absurd he (h.stop c q)
      · omega
      · exact .inr (.inl ⟨by omega, h2, by rwa [Nat.add_sub_cancel]⟩)
    · rintro (he | ⟨-, h2, he⟩ | ⟨h1, -⟩)
      · have := (h.wf.edge_lt he).1; omega
      · rw [Nat.add_sub_cancel] at he
        exact .inr (.inr ⟨by rw [h.fin]; simp, h2, he⟩)
      · have := h.wf.fin_lt _ h1; omega) (fun c q he => by
    have hq : f.size ≤ q := by
      rcases (c5 _ _ _).1 he with he | ⟨-, h2, -⟩ | ⟨h1, -⟩
      · have := (h.wf.edge_lt he).1; omega
      · exact h2
      · have := h.wf.fin_lt _ h1; omega
    rw [co, co, if_pos hzl, if_neg (by omega), if_pos (by rw [h.fin]; simp), if_neg (by omega), if_pos hq, Nat.add_sub_cancel])
  have moved : Moved f.Edge (f.concat g).Edge f.output (f.concat g).output (Inner f z) (Inner (f.concat g) (z' + f.size)) 0 := by
    refine ⟨fun q hq c p => ?_, fun q hq c p he => ?_, fun q hq => ⟨?_, ?_⟩⟩
    · rw [c5]
      have h1 := hq.1
      have h2 := hq.2
      constructor
      · rintro (he | ⟨h1, -⟩ | ⟨h1, -⟩)
        · exact ⟨p, rfl, he⟩
        · omega
        · rw [h.fin, Finset.mem_singleton] at h1; omega
      · rintro ⟨p', rfl, he⟩
        exact .inl he
    · have := (h.wf.edge_lt he).2.2
      have := hq.2
      rw [co, if_pos (by omega), if_pos (by omega), Nat.add_zero, Nat.add_zero]
    · have := hq.2; omega
    · rw [c1]; have := hq.2; omega
  refine ⟨⟨c6, c3, (concat_out h.wf h'.wf h.out h'.out c1).1, ?_, fun c p => ?_, ?_⟩, c2⟩
  · ext x
    rw [c4, h'.fin, Finset.mem_singleton, Finset.mem_singleton]
    omega
  · rw [c5]
    rintro (he | ⟨-, -, he⟩ | ⟨h1, -⟩)
    · have := (h.wf.edge_lt he).1; omega
    · rw [Nat.add_sub_cancel] at he; exact h'.stop _ _ he
    · have := h.wf.fin_lt _ h1; omega
  · rw [c2]
    exact moved.ent (e2.mono (by omega)) es m f.initial h.ent


theorem Chain.mono (h : Chain f z m es) (hm : m' ≤ m) : Chain f z m' es := ⟨h.wf, h.raw, h.out, h.fin, h.stop, h.ent.mono hm⟩

theorem chain_init : Chain Fsm.init 0 1 [] :=
  ⟨Fsm.WF.init, rfl, fun q p v hv => by simp [Fsm.init] at hv, rfl, fun c p he => by
    have := (Fsm.edge_iff).1 he
    simp [Fsm.dst, Fsm.init] at this, le_rfl, rfl⟩

/-! ### Bytes -/

/-- One state was added, the finals lead to it by the bytes. -/
structure Grown (f g : Fsm) (bs : Finset Nat) : Prop where
  wf : g.WF
  raw : g.Raw
  size : g.size = f.size + 1
  init : g.initial = f.initial
  fin : g.finals = {f.size}
  outputs : g.outputs = f.outputs
  edge : ∀ q c p, g.Edge q c p ↔ f.Edge q c p ∨ (q ∈ f.finals ∧ p = f.size ∧ c ∈ bs)
  alt : f.isAlt = false → g.isAlt = false

theorem grown_letters (hw : f.WF) (hr : f.Raw) (l : List Nat) (hl : ∀ c ∈ l, c < 256) : Grown f (f.appendLetters l) l.toFinset := by
  obtain ⟨h1, h2, h3, h4⟩ := Fsm.appendLetters_fields f l
  refine ⟨hw.appendLetters fun c hc => by have := hl c hc; omega, h4.trans hr, h1, h2, h3, ?_, fun q c p => ?_, fun ha => ?_⟩
  · unfold Fsm.appendLetters
    exact foldl_outputs (F := fun g c => g.connectFinal (g.size - 1) c) (fun f c => connectFinal_outputs f _ c) l (f.resize (f.size + 1))
  · rw [Fsm.appendLetters_edge hw, Fsm.key_raw hr, List.mem_toFinset]
  · exact Fsm.foldl_connectFinal_isAlt _ _ ha

theorem asFold_single (a : Nat) : ∀ (l : List Nat) (st : Fsm.ASt), st.fsm.WF → st.fsm.Raw → a < st.fsm.size → (∀ c ∈ l, c < 256) →
    let st' := (l.map fun c => [c]).foldl (Fsm.asStep a) st
    st'.fsm.WF ∧ st'.fsm.Raw ∧ st'.fsm.size = st.fsm.size ∧ st'.fsm.initial = st.fsm.initial ∧ st'.fsm.finals = st.fsm.finals ∧ st'.fsm.outputs = st.fsm.outputs ∧
      (∀ q c p, st'.fsm.Edge q c p ↔ st.fsm.Edge q c p ∨ (q ∈ st.fsm.finals ∧ p = a ∧ c ∈ l)) ∧ (st.fsm.isAlt = false → st'.fsm.isAlt = false) := by
  intro l
  induction l with
  | nil =>
    intro st hw hr ha _
    exact ⟨hw, hr, rfl, rfl, rfl, rfl, fun q c p => by simp, fun h => h⟩
  | cons d l ih =>
    intro st hw hr ha hl
    have hd := hl d (by simp)
    obtain ⟨s1, hs1⟩ : ∃ s1, s1 = Fsm.asStep a st [d] := ⟨_, rfl⟩
    have e0 : s1.fsm.Edge = (st.fsm.connectFinal a d).Edge := by rw [hs1]; exact Fsm.edge_congr rfl rfl
    have w1 : s1.fsm.WF := by
      rw [hs1]
      refine (hw.connectFinal ha (show d < 264 by omega)).congr rfl ?_ ?_ rfl rfl
      · change (st.fsm.connectFinal a d).initial < (st.fsm.connectFinal a d).size
        rw [Fsm.connectFinal_initial, Fsm.connectFinal_size]; exact hw.init_lt
      · change ∀ q ∈ (st.fsm.connectFinal a d).finals, q < (st.fsm.connectFinal a d).size
        rw [Fsm.connectFinal_finals, Fsm.connectFinal_size]; exact hw.fin_lt
    have r1 : s1.fsm.Raw := by rw [hs1]; exact (Fsm.connectFinal_letters st.fsm a d).trans hr
    have z1 : s1.fsm.size = st.fsm.size := by rw [hs1]; exact Fsm.connectFinal_size ..
    have i1 : s1.fsm.initial = st.fsm.initial := by rw [hs1]; exact Fsm.connectFinal_initial ..
    have f1 : s1.fsm.finals = st.fsm.finals := by rw [hs1]; exact Fsm.connectFinal_finals ..
    have o1 : s1.fsm.outputs = st.fsm.outputs := by rw [hs1]; exact connectFinal_outputs ..
    have a1 : s1.fsm.isAlt = false := by rw [hs1]; exact Fsm.connectFinal_isAlt st.fsm a d
    obtain ⟨g1, g2, g3, g4, g5, g6, g7, g8⟩ := ih s1 w1 r1 (by omega) (fun c hc => hl c (by simp [hc]))
    rw [List.map_cons, List.foldl_cons, ← hs1]
    refine ⟨g1, g2, g3.trans z1, g4.trans i1, g5.trans f1, g6.trans o1, fun q c p => ?_, fun _ => g8 a1⟩
    rw [g7, e0, Fsm.edge_connectFinal, f1, Fsm.key_raw hr, List.mem_cons]
    tauto

theorem grown_strings (hw : f.WF) (hr : f.Raw) (l : List Nat) (hl : ∀ c ∈ l, c < 256) : ∃ g, f.appendStrings (l.map fun c => [c]) = some g ∧ Grown f g l.toFinset := by
  obtain ⟨h1, h2, h3, h4, h5, h6, h7, h8⟩ := asFold_single f.size l { fsm := f.resize (f.size + 1), start := fun _ => 0, ltr := fun _ _ => 0 }
    (hw.resize (by omega)) hr (by simp) hl
  refine ⟨((l.map fun c => [c]).foldl (Fsm.asStep f.size) { fsm := f.resize (f.size + 1), start := fun _ => 0, ltr := fun _ _ => 0 }).fsm.clearFinal.setFinal f.size true, ?_, ?_⟩
  · unfold Fsm.appendStrings
    rw [if_neg (by simp)]
    simp only [Fsm.resize_size, Nat.add_sub_cancel]
  · dsimp only at h1 h2 h3 h4 h5 h6 h7 h8
    obtain ⟨st, hst⟩ : ∃ st, st = (l.map fun c => [c]).foldl (Fsm.asStep f.size) { fsm := f.resize (f.size + 1), start := fun _ => 0, ltr := fun _ _ => 0 } := ⟨_, rfl⟩
    rw [← hst] at h1 h2 h3 h4 h5 h6 h7 h8 ⊢
    have hs : st.fsm.size = f.size + 1 := h3
    have hi : st.fsm.initial = f.initial := h4
    refine ⟨h1.congr rfl ?_ ?_ rfl rfl, h2, hs, hi, ?_, h6, fun q c p => ?_, h8⟩
    · change st.fsm.initial < st.fsm.size
      exact h1.init_lt
    · intro q hq
      simp only [Fsm.setFinal, Fsm.clearFinal] at hq ⊢
      simp at hq
      omega
    · simp [Fsm.setFinal, Fsm.clearFinal]
    · have e0 : (st.fsm.clearFinal.setFinal f.size true).Edge = st.fsm.Edge := Fsm.edge_congr rfl rfl
      rw [e0, h7, Fsm.resize_edge hw (by omega), List.mem_toFinset]
      rfl


theorem Grown.out (hg : Grown f g bs) (ho : OutIn f) : OutIn g := ho.mono hg.outputs (by have := hg.size; omega)

/-- One byte more. -/
theorem Chain.grow {bs : Finset Nat} (h : Chain f z m es) (hg : Grown f g bs) (hb : ∀ c ∈ bs, c < 256) : Chain g f.size m (es ++ [.item ⟨bs, 1, some 1, false⟩]) := by
  have hzl := h.lt
  have out := output_congr hg.outputs
  refine ⟨hg.wf, hg.raw, hg.out h.out, hg.fin, fun c p => ?_, ?_⟩
  · rw [hg.edge]
    rintro (he | ⟨h1, -⟩)
    · have := (h.wf.edge_lt he).1; omega
    · have := h.wf.fin_lt _ h1; omega
  · have moved : Moved f.Edge g.Edge f.output g.output (Inner f z) (Inner g f.size) 0 := by
      refine ⟨fun q hq c p => ?_, fun q hq c p he => ?_, fun q hq => ⟨?_, ?_⟩⟩
      · rw [hg.edge]
        have h1 := hq.1
        constructor
        · rintro (he | ⟨h1, -⟩)
          · exact ⟨p, rfl, he⟩
          · rw [h.fin, Finset.mem_singleton] at h1; omega
        · rintro ⟨p', rfl, he⟩
          exact .inl he
      · rw [out]; rfl
      · have := hq.2; omega
      · rw [hg.size]; have := hq.2; omega
    rw [hg.init]
    refine moved.ent (B' := (· = f.size)) (es' := [.item ⟨bs, 1, some 1, false⟩]) (z := z) ?_ es m f.initial h.ent
    refine ⟨⟨le_rfl, fun h hh => by simpa using hh.symm, hb⟩, ?_⟩
    rw [if_neg (by simp)]
    refine ⟨f.size, ⟨⟨⟨by omega, by rw [hg.size]; omega⟩, fun c p => ?_⟩, fun _ => ?_⟩, ?_⟩
    · rw [hg.edge, h.fin]
      constructor
      · rintro (he | ⟨-, h1, h2⟩)
        · exact absurd he (h.stop c p)
        · exact ⟨h2, h1⟩
      · rintro ⟨h1, h2⟩
        exact .inr ⟨by simp, h2, h1⟩
    · rw [out]; exact h.out.zero (by omega)
    · unfold After
      dsimp only
      rw [if_neg (by simp)]
      exact ⟨le_rfl, rfl⟩

/-- The group that is captured. -/
theorem Chain.capture (h : Chain f z m es) (hm : f.initial + 1 ≤ m) : Chain (setCaptureMark f) (f.size + 1) 0 (.opn :: es ++ [.cls]) := by
  obtain ⟨c1, c2, c3, c4, c5, -, -, -, cE, cO⟩ := setCaptureMark_spec h.wf
  have hzl := h.lt
  have hil := h.wf.init_lt
  refine ⟨c1, c5.trans h.raw, mark_out h.wf h.out, c4, fun c p => ?_, ?_⟩
  · rw [cE]
    rintro (he | ⟨h1, -⟩ | ⟨h1, -⟩)
    · have := (h.wf.edge_lt he).1; omega
    · omega
    · have := h.wf.fin_lt _ h1; omega
  · have moved : Moved f.Edge (setCaptureMark f).Edge f.output (setCaptureMark f).output (Inner f z) (Inner (setCaptureMark f) (f.size + 1)) 0 := by
      refine ⟨fun q hq c p => ?_, fun q hq c p he => ?_, fun q hq => ⟨?_, ?_⟩⟩
      · rw [cE]
        have h1 := hq.1
        have h2 := hq.2
        constructor
        · rintro (he | ⟨h1, -⟩ | ⟨h1, -⟩)
          · exact ⟨p, rfl, he⟩
          · omega
          · rw [h.fin, Finset.mem_singleton] at h1; omega
        · rintro ⟨p', rfl, he⟩
          exact .inl he
      · have h1 := hq.2
        have h2 := (h.wf.edge_lt he).2.2
        rw [cO, if_neg (by omega), if_neg (by omega)]; rfl
      · have := hq.2; omega
      · rw [c2]; have := hq.2; omega
    have e := moved.ent (B' := (· = f.size + 1)) (es' := [.cls]) (z := z) ?_ es m f.initial h.ent
    · rw [c3]
      refine ⟨f.initial, ⟨Nat.zero_le _, ⟨⟨by omega, by rw [c2]; omega⟩, fun c p => ?_⟩, ?_⟩, e.mono hm⟩
      · rw [cE]
        constructor
        · rintro (he | ⟨-, h1, h2⟩ | ⟨h1, -⟩)
          · have := (h.wf.edge_lt he).1; omega
          · exact ⟨h1, h2⟩
          · have := h.wf.fin_lt _ h1; omega
        · rintro ⟨h1, h2⟩
          exact .inr (.inl ⟨rfl, h1, h2⟩)
      · rw [cO, if_neg (by omega), if_pos ⟨rfl, rfl⟩]
    · refine ⟨f.size + 1, ⟨by omega, ⟨⟨by omega, by rw [c2]; omega⟩, fun c p => ?_⟩, ?_⟩, le_rfl, rfl⟩
      · rw [cE, h.fin]
        constructor
        · rintro (he | ⟨h1, -⟩ | ⟨-, h1, h2⟩)
          · exact absurd he (h.stop c p)
          · omega
          · exact ⟨h1, h2⟩
        · rintro ⟨h1, h2⟩
          exact .inr (.inr ⟨by simp, h1, h2⟩)
      · rw [cO, if_pos ⟨by rw [h.fin]; simp, rfl⟩]

end Capture
end Pire
