import Verif.Proofs.FsmImport

/-! # Reverse, MakeSuffix, AppendStrings -/

namespace Pire
namespace Fsm

open Spec

/-! ### Reverse -/

/-- The transitions `Reverse` creates for the old ones. -/
def revList (f : Fsm) : List (Nat × Nat × Nat) :=
  (List.range f.size).flatMap fun q => (rowEdges (f.tr q)).map fun e => (e.2, q, e.1)

theorem mem_revList {f : Fsm} (h : f.WF) {q p c : Nat} : (q, p, c) ∈ revList f ↔ q ∈ f.dst p c := by
  unfold revList
  simp only [List.mem_flatMap, List.mem_range, List.mem_map, Prod.mk.injEq, Prod.exists]
  constructor
  · rintro ⟨a, ha, c', q', hm, rfl, rfl, rfl⟩
    exact (mem_rowEdges.1 hm).2
  · intro hq
    have := h.dst_lt hq
    exact ⟨p, this.1, c, q, mem_rowEdges.2 ⟨this.2.1, hq⟩, rfl, rfl, rfl⟩

theorem reverse_fields (f : Fsm) : f.reverse.size = f.size + 1 ∧ f.reverse.initial = f.size ∧
    f.reverse.finals = {f.initial} ∧ f.reverse.letters = f.letters := by
  simp [reverse, swapFrom, setInitial, setFinal, init]

theorem reverse_isAlt {f : Fsm} : f.reverse.isAlt = false := by
  have gen : ∀ (l) (g : Fsm), g.isAlt = false → (g.connectAll l).isAlt = false := by
    intro l g hg
    cases l with
    | nil => exact hg
    | cons t l => exact connectAll_isAlt _ _ (by simp)
  simp only [reverse, swapFrom, setInitial, setFinal]
  exact gen _ _ (gen _ _ rfl)

theorem reverse_tr (f : Fsm) : f.reverse.tr = ((({ init.resize (f.size + 1) with letters := f.letters } : Fsm).connectAll
    (revList f)).connectAll ((elems f.finals).map fun q => (f.size, q, 257))).tr := by
  have h : ∀ (l) (g g' : Fsm), g.tr = g'.tr → (g.connectAll l).tr = (g'.connectAll l).tr := by
    intro l
    induction l with
    | nil => exact fun g g' h => h
    | cons t l ih =>
      intro g g' hg
      rw [connectAll_cons, connectAll_cons]
      apply ih
      funext q c
      simp only [connect, dst, hg]
  exact h _ _ _ rfl

theorem reverse_edge {f : Fsm} (h : f.WF) (q c p : Nat) :
    f.reverse.Edge q c p ↔ f.Edge p c q ∨ (q = f.size ∧ p ∈ f.finals ∧ c = 257) := by
  obtain ⟨-, -, -, hl⟩ := reverse_fields f
  rw [edge_iff, key_congr hl, dst_congr (reverse_tr f), mem_dst_connectAll, mem_dst_connectAll, mem_revList h,
    edge_iff]
  have : p ∉ ({ init.resize (f.size + 1) with letters := f.letters } : Fsm).dst q (f.key c) := by
    simp [dst, init, resize]
  simp only [this, false_or, List.mem_map, Prod.mk.injEq, mem_elems]
  constructor
  · rintro (h1 | ⟨a, ha, rfl, rfl, hk⟩)
    · exact .inl h1
    · exact .inr ⟨rfl, ha, h.key_eq_eps.1 hk.symm⟩
  · rintro (h1 | ⟨rfl, hp, rfl⟩)
    · exact .inl h1
    · exact .inr ⟨p, hp, rfl, rfl, by simp⟩

theorem WF.reverse {f : Fsm} (h : f.WF) : f.reverse.WF := by
  obtain ⟨h1, h2, h3, h4⟩ := reverse_fields f
  have hi := h.init_lt
  have hw : ({ Fsm.init.resize (f.size + 1) with letters := f.letters } : Fsm).WF := by
    refine ⟨?_, ?_, ?_, h.let_wf, h.let_lt⟩
    · simp [Fsm.init]
    · simp [Fsm.init]
    · simp [Fsm.init, Fsm.resize]
  have hw2 := (hw.connectAll (l := revList f) (by
    intro q p c hm
    have := h.dst_lt ((mem_revList h).1 hm)
    change q < f.size + 1 ∧ p < f.size + 1 ∧ _
    omega)).connectAll (l := (elems f.finals).map fun q => (f.size, q, 257)) (by
    intro q p c hm
    simp only [List.mem_map, Prod.mk.injEq, mem_elems] at hm
    obtain ⟨a, ha, rfl, rfl, rfl⟩ := hm
    have := h.fin_lt _ ha
    simp only [connectAll_size, resize_size]
    omega)
  refine hw2.congr (by rw [h1]; simp) (by rw [h1, h2]; omega) ?_ (reverse_tr f) (by rw [h4]; simp)
  rw [h1, h3]
  simp; omega

theorem lang_reverse {f : Fsm} (h : f.WF) : f.reverse.Lang = mirror f.Lang := by
  obtain ⟨h1, h2, h3, h4⟩ := reverse_fields f
  have hi := h.init_lt
  ext w
  rw [mem_lang, h2, h3]
  have inner : ∀ {q p}, Run f.reverse.Edge q w p → q < f.size → Run f.Edge p w.reverse q := by
    intro q p hr hq
    have h5 : Run (fun a c b => f.Edge b c a) q w p := by
      refine hr.mono_on (S := (· < f.size)) hq ?_
      intro a c b ha e
      rcases (reverse_edge h _ _ _).1 e with e | ⟨e, _⟩
      · exact ⟨e, (h.edge_lt e).1⟩
      · omega
    exact h5.reverse (fun a c b e => e)
  constructor
  · rintro ⟨p, hp, hr⟩
    simp only [Finset.mem_singleton] at hp
    subst hp
    generalize hn : f.size = n at hr
    cases hr with
    | refl => omega
    | eps e h' =>
      subst hn
      rcases (reverse_edge h _ _ _).1 e with e | ⟨_, e, _⟩
      · have := (h.edge_lt e).2.2; omega
      · exact ⟨_, e, inner h' (h.fin_lt _ e)⟩
    | step hc e h' =>
      subst hn
      rcases (reverse_edge h _ _ _).1 e with e | ⟨_, _, e⟩
      · have := (h.edge_lt e).2.2; omega
      · exact absurd e hc
  · rintro ⟨r, hr, hrun⟩
    refine ⟨f.initial, by simp, ?_⟩
    refine .eps ((reverse_edge h _ _ _).2 (.inr ⟨rfl, hr, rfl⟩)) ?_
    have := hrun.reverse (E' := f.reverse.Edge) (fun a c b e => (reverse_edge h _ _ _).2 (.inl e))
    simpa using this

/-! ### MakeSuffix -/

theorem makeSuffix_edge {f : Fsm} (h : f.WF) (q c p : Nat) :
    f.makeSuffix.Edge q c p ↔ f.Edge q c p ∨ (q = f.initial ∧ p < f.size ∧ p ≠ f.initial ∧ c = 257) := by
  rw [makeSuffix, edge_clearHints, edge_connectAll]
  simp only [List.mem_map, List.mem_filter, List.mem_range, decide_eq_true_eq, Prod.mk.injEq]
  constructor
  · rintro (h1 | ⟨a, ⟨ha, ha'⟩, rfl, rfl, hk⟩)
    · exact .inl h1
    · exact .inr ⟨rfl, ha, ha', h.key_eq_eps.1 hk.symm⟩
  · rintro (h1 | ⟨rfl, h2, h3, rfl⟩)
    · exact .inl h1
    · exact .inr ⟨p, ⟨h2, h3⟩, rfl, rfl, by simp⟩

theorem makeSuffix_fields (f : Fsm) : f.makeSuffix.size = f.size ∧ f.makeSuffix.initial = f.initial ∧
    f.makeSuffix.finals = f.finals ∧ f.makeSuffix.letters = f.letters := by
  simp [makeSuffix, clearHints]

theorem WF.makeSuffix {f : Fsm} (h : f.WF) : f.makeSuffix.WF := by
  have hw := h.connectAll (l := ((List.range f.size).filter (· ≠ f.initial)).map fun i => (f.initial, i, Epsilon)) (by
    intro q p c hm
    simp only [List.mem_map, List.mem_filter, List.mem_range, Prod.mk.injEq] at hm
    obtain ⟨a, ha, rfl, rfl, rfl⟩ := hm
    exact ⟨h.init_lt, ha.1, by decide⟩)
  exact hw.congr rfl hw.init_lt hw.fin_lt rfl rfl

/-- Suffixes, when the initial state cannot be re-entered and everything is reachable. -/
theorem lang_makeSuffix {f : Fsm} (h : f.WF)
    (hreach : ∀ q, q < f.size → ∃ u, Run f.Edge f.initial u q) (hno : ∀ q c, ¬ f.Edge q c f.initial) :
    f.makeSuffix.Lang = suffixes f.Lang := by
  obtain ⟨h1, h2, h3, h4⟩ := makeSuffix_fields f
  ext w
  rw [mem_lang, h2, h3]
  have inner : ∀ {q p}, q ≠ f.initial → Run f.makeSuffix.Edge q w p → Run f.Edge q w p := by
    intro q p hq hr
    refine hr.mono_on (S := (· ≠ f.initial)) hq ?_
    intro a c b ha e
    rcases (makeSuffix_edge h _ _ _).1 e with e | ⟨e, _⟩
    · exact ⟨e, by rintro rfl; exact hno _ _ e⟩
    · exact absurd e ha
  constructor
  · rintro ⟨p, hp, hr⟩
    cases hr with
    | refl => exact ⟨[], f.initial, hp, .refl _⟩
    | @eps _ q' _ _ e h' =>
      rcases (makeSuffix_edge h _ _ _).1 e with e | ⟨_, e, hne, _⟩
      · have := inner (by rintro rfl; exact hno _ _ e) h'
        exact ⟨[], p, hp, .eps e this⟩
      · obtain ⟨u, hu⟩ := hreach q' e
        exact ⟨u, p, hp, hu.trans (inner hne h')⟩
    | @step _ c q' w' _ hc e h' =>
      rcases (makeSuffix_edge h _ _ _).1 e with e | ⟨_, _, _, hc'⟩
      · refine ⟨[], p, hp, .step hc e ?_⟩
        refine h'.mono_on (S := (· ≠ f.initial)) (by rintro rfl; exact hno _ _ e) ?_
        intro a c b ha e
        rcases (makeSuffix_edge h _ _ _).1 e with e | ⟨e, _⟩
        · exact ⟨e, by rintro rfl; exact hno _ _ e⟩
        · exact absurd e ha
      · exact absurd hc' hc
  · rintro ⟨u, p, hp, hr⟩
    refine ⟨p, hp, ?_⟩
    obtain ⟨q, hq1, hq2⟩ := hr.split
    have up := hq2.mono (E' := f.makeSuffix.Edge) (fun a c b e => (makeSuffix_edge h _ _ _).2 (.inl e))
    by_cases hqi : q = f.initial
    · rw [← hqi]; exact up
    · exact .eps ((makeSuffix_edge h _ _ _).2 (.inr ⟨rfl, h.run_lt hq1 h.init_lt, hqi, rfl⟩)) up

/-! ### AppendStrings -/

/-- Loop invariant of `AppendStrings`: `T` are the strings processed so far, `π` names each new state by the
string leading to it. -/
structure ASInv (f : Fsm) (T : List (List Nat)) (st : ASt) (π : Nat → List Nat) : Prop where
  wf : st.fsm.WF
  raw : st.fsm.Raw
  init_eq : st.fsm.initial = f.initial
  fin_eq : st.fsm.finals = f.finals
  size_lt : f.size < st.fsm.size
  old : ∀ q c p, f.Edge q c p → st.fsm.Edge q c p
  sound : ∀ q c p, st.fsm.Edge q c p → f.Edge q c p ∨ c ≠ 257 ∧
    ((q ∈ f.finals ∧ p = f.size ∧ [c] ∈ T) ∨ (q ∈ f.finals ∧ f.size < p ∧ π p = [c]) ∨
     (f.size < q ∧ p = f.size ∧ π q ++ [c] ∈ T) ∨ (f.size < q ∧ f.size < p ∧ π p = π q ++ [c]))
  complete : ∀ t ∈ T, ∀ q ∈ f.finals, Run st.fsm.Edge q t f.size
  start : ∀ c, st.start c ≠ 0 → f.size < st.start c ∧ st.start c < st.fsm.size ∧ π (st.start c) = [c] ∧
    ∀ q ∈ f.finals, st.fsm.Edge q c (st.start c)
  ltr : ∀ s c, st.ltr s c ≠ 0 → f.size < st.ltr s c ∧ st.ltr s c < st.fsm.size ∧ f.size < s ∧
    π (st.ltr s c) = π s ++ [c] ∧ st.fsm.Edge s c (st.ltr s c)

theorem ASInv.fresh_edge {f : Fsm} {T st π} (h : ASInv f T st π) {q c p n : Nat} (hn : st.fsm.size ≤ n)
    (e : st.fsm.Edge q c p) : q ≠ n ∧ p ≠ n := by
  have := h.wf.edge_lt e; omega

/-- A new state, reached from the old final states or from another new state. -/
theorem ASInv.grow {f : Fsm} {T st π} (hf : f.WF) (h : ASInv f T st π) {g : Fsm} {n c : Nat} {u : List Nat}
    (hn : n = st.fsm.size) (hc : c < 256) {src : Nat → Prop}
    (hsrc : (src = (· ∈ f.finals) ∧ u = []) ∨ ∃ s, f.size < s ∧ s < n ∧ src = (· = s) ∧ u = π s)
    (gwf : g.WF) (graw : g.Raw) (gi : g.initial = f.initial) (gf : g.finals = f.finals)
    (gs : g.size = st.fsm.size + 1)
    (gE : ∀ q d p, g.Edge q d p ↔ st.fsm.Edge q d p ∨ (src q ∧ p = n ∧ d = c)) :
    ASInv f T { st with fsm := g } (Function.update π n (u ++ [c])) := by
  have hsz := h.size_lt
  refine ⟨gwf, graw, gi, gf, by simp only [gs]; omega, fun q d p e => (gE _ _ _).2 (.inl (h.old _ _ _ e)), ?_, ?_, ?_, ?_⟩
  · intro q d p e
    rcases (gE _ _ _).1 e with e | ⟨hs, rfl, rfl⟩
    · have hne := h.fresh_edge (n := n) (by omega) e
      rw [Function.update_of_ne hne.2, Function.update_of_ne hne.1]
      exact h.sound _ _ _ e
    · right
      refine ⟨by omega, ?_⟩
      rw [Function.update_self]
      rcases hsrc with ⟨rfl, rfl⟩ | ⟨s, hs1, hs2, rfl, rfl⟩
      · right; left; exact ⟨hs, by omega, rfl⟩
      · right; right; right
        have : q = s := hs
        subst this
        rw [Function.update_of_ne (by omega)]
        exact ⟨hs1, by omega, rfl⟩
  · intro t ht q hq
    exact (h.complete t ht q hq).mono (fun a d b e => (gE _ _ _).2 (.inl e))
  · intro d hd
    obtain ⟨h1, h2, h3, h4⟩ := h.start d hd
    refine ⟨h1, by simp only [gs]; omega, ?_, fun q hq => (gE _ _ _).2 (.inl (h4 q hq))⟩
    rw [Function.update_of_ne (by simp only; omega)]; exact h3
  · intro s d hd
    obtain ⟨h1, h2, h0, h3, h4⟩ := h.ltr s d hd
    have hne := h.fresh_edge (n := n) (by omega) h4
    refine ⟨h1, by simp only [gs]; omega, h0, ?_, (gE _ _ _).2 (.inl h4)⟩
    rw [Function.update_of_ne (by simp only; omega), Function.update_of_ne hne.1]; exact h3

theorem ASInv.congr_det {f : Fsm} {T st π} (h : ASInv f T st π) (b : Bool) :
    ASInv f T { st with fsm := { st.fsm with determined := b } } π := by
  have hE : ({ st.fsm with determined := b } : Fsm).Edge = st.fsm.Edge := edge_congr rfl rfl
  refine ⟨h.wf.congr rfl h.wf.init_lt h.wf.fin_lt rfl rfl, h.raw, h.init_eq, h.fin_eq, h.size_lt, ?_, ?_, ?_, ?_, ?_⟩
  · intro q c p e; simp only [hE]; exact h.old _ _ _ e
  · intro q c p e; simp only [hE] at e; exact h.sound _ _ _ e
  · intro t ht q hq; simp only [hE]; exact h.complete t ht q hq
  · intro c hc; simp only [hE]; exact h.start c hc
  · intro s c hc; simp only [hE]; exact h.ltr s c hc

/-- The middle loop. -/
theorem asMid_inv {f : Fsm} (hf : f.WF) {T : List (List Nat)} {cs : List Nat} (hcs : ∀ c ∈ cs, c < 256) {st : ASt}
    {π : Nat → List Nat} {s : Nat} (h : ASInv f T st π) (hs : f.size < s) (hs2 : s < st.fsm.size) :
    ∃ π', ASInv f T (cs.foldl asMid (st, s)).1 π' ∧ f.size < (cs.foldl asMid (st, s)).2 ∧
      (cs.foldl asMid (st, s)).2 < (cs.foldl asMid (st, s)).1.fsm.size ∧
      π' (cs.foldl asMid (st, s)).2 = π s ++ cs ∧
      Run (cs.foldl asMid (st, s)).1.fsm.Edge s cs (cs.foldl asMid (st, s)).2 ∧
      (∀ q c p, st.fsm.Edge q c p → (cs.foldl asMid (st, s)).1.fsm.Edge q c p) := by
  induction cs generalizing st π s with
  | nil => exact ⟨π, h, hs, hs2, by simp, .refl _, fun _ _ _ e => e⟩
  | cons c cs ih =>
    have hc := hcs c (by simp)
    rw [List.foldl_cons]
    by_cases hl : st.ltr s c = 0
    · have hstep : asMid (st, s) c = ({ fsm := { ((st.fsm.resize (st.fsm.size + 1)).connect s st.fsm.size c) with determined := false }, start := st.start, ltr := fun q d => if q = s ∧ d = c then st.fsm.size else st.ltr q d }, st.fsm.size) := by
        simp only [asMid, if_pos hl]
      rw [hstep]
      have hsz := h.size_lt
      have gE : ∀ q d p, ((st.fsm.resize (st.fsm.size + 1)).connect s st.fsm.size c).Edge q d p ↔
          st.fsm.Edge q d p ∨ (q = s ∧ p = st.fsm.size ∧ d = c) := by
        intro q d p
        rw [edge_connect, resize_edge h.wf (by omega), key_raw (show (st.fsm.resize (st.fsm.size + 1)).Raw from h.raw)]
      have h1 := (h.grow hf (g := (st.fsm.resize (st.fsm.size + 1)).connect s st.fsm.size c) (n := st.fsm.size) (c := c)
        (src := (· = s)) (u := π s) rfl hc (.inr ⟨s, hs, hs2, rfl, rfl⟩)
        ((h.wf.resize (by omega)).connect (by simp only [resize_size]; omega) (by simp) (by omega)) h.raw
        h.init_eq h.fin_eq rfl gE).congr_det false
      have gEdet : ({ (st.fsm.resize (st.fsm.size + 1)).connect s st.fsm.size c with determined := false } : Fsm).Edge
          = ((st.fsm.resize (st.fsm.size + 1)).connect s st.fsm.size c).Edge := edge_congr rfl rfl
      have h2 : ASInv f T ({ fsm := { (st.fsm.resize (st.fsm.size + 1)).connect s st.fsm.size c with determined := false }, start := st.start, ltr := fun q d => if q = s ∧ d = c then st.fsm.size else st.ltr q d } : ASt) (Function.update π st.fsm.size (π s ++ [c])) := by
        refine ⟨h1.wf, h1.raw, h1.init_eq, h1.fin_eq, h1.size_lt, h1.old, h1.sound, h1.complete, h1.start, ?_⟩
        intro s' c' hl'
        simp only at hl' ⊢
        by_cases hsc : s' = s ∧ c' = c
        · obtain ⟨rfl, rfl⟩ := hsc
          simp only [true_and, if_true] at hl' ⊢
          refine ⟨by omega, by simp, hs, ?_, ?_⟩
          · rw [Function.update_self, Function.update_of_ne (by omega)]
          · rw [gEdet, gE]; exact .inr ⟨rfl, rfl, rfl⟩
        · rw [if_neg hsc] at hl' ⊢
          exact h1.ltr s' c' hl'
      obtain ⟨π', k1, k2, k3, k4, k5, k6⟩ := ih (fun c hc => hcs c (by simp [hc])) h2 (s := st.fsm.size)
        (by omega) (by simp)
      refine ⟨π', k1, k2, k3, ?_, ?_, ?_⟩
      · rw [k4, Function.update_self]; simp
      · refine .step (by omega) (k6 _ _ _ ?_) k5
        rw [gEdet, gE]; exact .inr ⟨rfl, rfl, rfl⟩
      · intro q d p e
        apply k6
        rw [gEdet, gE]; exact .inl e
    · have hstep : asMid (st, s) c = (st, st.ltr s c) := by
        simp only [asMid, if_neg hl]
      rw [hstep]
      obtain ⟨h1, h2, -, h3, h4⟩ := h.ltr s c hl
      obtain ⟨π', k1, k2, k3, k4, k5, k6⟩ := ih (fun c hc => hcs c (by simp [hc])) h h1 h2
      refine ⟨π', k1, k2, k3, ?_, .step (by omega) (k6 _ _ _ h4) k5, k6⟩
      rw [k4, h3]; simp

theorem ASInv.addString {f : Fsm} {T st π} (h : ASInv f T st π) {t : List Nat} {g : Fsm} (gwf : g.WF) (graw : g.Raw)
    (gi : g.initial = f.initial) (gf : g.finals = f.finals) (gs : g.size = st.fsm.size)
    {src : Nat → Prop} {c : Nat} (hc : c < 256)
    (gE : ∀ q d p, g.Edge q d p ↔ st.fsm.Edge q d p ∨ (src q ∧ p = f.size ∧ d = c))
    (hsrc : (src = (· ∈ f.finals) ∧ t = [c]) ∨ ∃ s, f.size < s ∧ src = (· = s) ∧ t = π s ++ [c])
    (hrun : ∀ q ∈ f.finals, Run g.Edge q t f.size) :
    ASInv f (T ++ [t]) { st with fsm := g } π := by
  refine ⟨gwf, graw, gi, gf, by simp only [gs]; exact h.size_lt, fun q d p e => (gE _ _ _).2 (.inl (h.old _ _ _ e)),
    ?_, ?_, ?_, ?_⟩
  · intro q d p e
    rcases (gE _ _ _).1 e with e | ⟨hs, rfl, rfl⟩
    · rcases h.sound _ _ _ e with e | ⟨hd, h1 | h1 | h1 | h1⟩
      · exact .inl e
      · exact .inr ⟨hd, .inl ⟨h1.1, h1.2.1, by simp [h1.2.2]⟩⟩
      · exact .inr ⟨hd, .inr (.inl h1)⟩
      · exact .inr ⟨hd, .inr (.inr (.inl ⟨h1.1, h1.2.1, by simp [h1.2.2]⟩))⟩
      · exact .inr ⟨hd, .inr (.inr (.inr h1))⟩
    · right
      refine ⟨by omega, ?_⟩
      rcases hsrc with ⟨rfl, rfl⟩ | ⟨s, hs1, rfl, rfl⟩
      · left; exact ⟨hs, rfl, by simp⟩
      · right; right; left
        have : q = s := hs
        subst this
        exact ⟨hs1, rfl, by simp⟩
  · intro t' ht' q hq
    rcases List.mem_append.1 ht' with ht' | ht'
    · exact (h.complete t' ht' q hq).mono (fun a d b e => (gE _ _ _).2 (.inl e))
    · rw [List.mem_singleton] at ht'; subst ht'; exact hrun q hq
  · intro d hd
    obtain ⟨h1, h2, h3, h4⟩ := h.start d hd
    exact ⟨h1, by simp only [gs]; exact h2, h3, fun q hq => (gE _ _ _).2 (.inl (h4 q hq))⟩
  · intro s d hd
    obtain ⟨h1, h2, h0, h3, h4⟩ := h.ltr s d hd
    exact ⟨h1, by simp only [gs]; exact h2, h0, h3, (gE _ _ _).2 (.inl h4)⟩

theorem asStep_inv {f : Fsm} (hf : f.WF) {T : List (List Nat)} {st : ASt} {π : Nat → List Nat} (h : ASInv f T st π)
    {t : List Nat} (ht : t ≠ []) (hb : ∀ c ∈ t, c < 256) : ∃ π', ASInv f (T ++ [t]) (asStep f.size st t) π' := by
  have hsz := h.size_lt
  match t, ht, hb with
  | [c], _, hb =>
    have hc := hb c (by simp)
    have gE : ∀ q d p, (st.fsm.connectFinal f.size c).Edge q d p ↔
        st.fsm.Edge q d p ∨ (q ∈ f.finals ∧ p = f.size ∧ d = c) := by
      intro q d p
      rw [edge_connectFinal, key_raw h.raw, h.fin_eq]
    refine ⟨π, (h.addString (g := st.fsm.connectFinal f.size c) (t := [c]) (c := c) (src := (· ∈ f.finals))
      (h.wf.connectFinal (by omega) (by omega)) (by unfold Raw; simp; exact h.raw) (by simp [h.init_eq])
      (by simp [h.fin_eq]) (by simp) hc gE (.inl ⟨rfl, rfl⟩) ?_).congr_det false⟩
    intro q hq
    exact Run.one (by omega) ((gE _ _ _).2 (.inr ⟨hq, rfl, rfl⟩))
  | c :: c2 :: cs, _, hb =>
    have hc := hb c (by simp)
    -- the first letter
    obtain ⟨st1, hst1, π1, h1, g1, g2, g3, g4⟩ : ∃ st1 : ASt, st1 = (if st.start c = 0 then
        { st with fsm := { (st.fsm.resize (st.fsm.size + 1)).connectFinal st.fsm.size c with determined := false },
                  start := fun d => if d = c then st.fsm.size else st.start d }
      else st) ∧ ∃ π1, ASInv f T st1 π1 ∧ f.size < st1.start c ∧ st1.start c < st1.fsm.size ∧
        π1 (st1.start c) = [c] ∧ ∀ q ∈ f.finals, st1.fsm.Edge q c (st1.start c) := by
      refine ⟨_, rfl, ?_⟩
      by_cases hst : st.start c = 0
      · rw [if_pos hst]
        have gE : ∀ q d p, ((st.fsm.resize (st.fsm.size + 1)).connectFinal st.fsm.size c).Edge q d p ↔
            st.fsm.Edge q d p ∨ (q ∈ f.finals ∧ p = st.fsm.size ∧ d = c) := by
          intro q d p
          rw [edge_connectFinal, resize_edge h.wf (by omega),
            key_raw (show (st.fsm.resize (st.fsm.size + 1)).Raw from h.raw), resize_finals, h.fin_eq]
        have h1 := (h.grow hf (g := (st.fsm.resize (st.fsm.size + 1)).connectFinal st.fsm.size c)
          (n := st.fsm.size) (c := c) (src := (· ∈ f.finals)) (u := []) rfl hc (.inl ⟨rfl, rfl⟩)
          ((h.wf.resize (by omega)).connectFinal (by simp) (by omega)) (by unfold Raw; simp; exact h.raw)
          (by simp [h.init_eq]) (by simp [h.fin_eq]) (by simp) gE).congr_det false
        have gEdet : ({ (st.fsm.resize (st.fsm.size + 1)).connectFinal st.fsm.size c with determined := false } : Fsm).Edge
          = ((st.fsm.resize (st.fsm.size + 1)).connectFinal st.fsm.size c).Edge := edge_congr rfl rfl
        refine ⟨Function.update π st.fsm.size ([] ++ [c]),
          ⟨h1.wf, h1.raw, h1.init_eq, h1.fin_eq, h1.size_lt, h1.old, h1.sound, h1.complete, ?_, h1.ltr⟩, ?_⟩
        · intro d hd
          simp only at hd ⊢
          by_cases hdc : d = c
          · subst hdc
            simp only [if_true]
            refine ⟨by omega, by simp, by simp, ?_⟩
            intro q hq
            rw [gEdet, gE]; exact .inr ⟨hq, rfl, rfl⟩
          · rw [if_neg hdc] at hd ⊢
            exact h1.start d hd
        · simp only [if_true]
          refine ⟨by omega, by simp, by simp, ?_⟩
          intro q hq
          rw [gEdet, gE]; exact .inr ⟨hq, rfl, rfl⟩
      · rw [if_neg hst]
        exact ⟨π, h, h.start c hst⟩
    -- the middle letters
    set mid := (c2 :: cs).dropLast with hmid
    obtain ⟨π2, k1, k2, k3, k4, k5, k6⟩ := asMid_inv hf (cs := mid)
      (fun d hd => hb d (by simp only [List.mem_cons]; right; exact List.mem_cons.1 (List.dropLast_subset _ hd)))
      h1 g1 g2
    set r := mid.foldl asMid (st1, st1.start c) with hr
    -- the last letter
    set last := (c2 :: cs).getLastD 0 with hlast
    have hmem : last ∈ c2 :: cs := by
      rw [hlast, List.getLastD_eq_getLast?, List.getLast?_eq_some_getLast (by simp)]
      exact List.getLast_mem _
    have hl256 : last < 256 := hb last (by simp only [List.mem_cons]; right; exact List.mem_cons.1 hmem)
    have hsplit : mid ++ [last] = c2 :: cs := by
      have h5 := List.dropLast_append_getLast (l := c2 :: cs) (by simp)
      rw [hlast, List.getLastD_eq_getLast?, List.getLast?_eq_some_getLast (by simp), hmid]
      exact h5
    have hstep : asStep f.size st (c :: c2 :: cs) =
        { r.1 with fsm := { r.1.fsm.connect r.2 f.size last with determined := false } } := by
      simp only [asStep]
      rw [← hmid, ← hlast]
      change _ = ASt.mk _ _ _
      rw [hr, hst1]
    rw [hstep]
    have gE : ∀ q d p, (r.1.fsm.connect r.2 f.size last).Edge q d p ↔
        r.1.fsm.Edge q d p ∨ (q = r.2 ∧ p = f.size ∧ d = last) := by
      intro q d p
      rw [edge_connect, key_raw k1.raw]
    refine ⟨π2, (k1.addString (g := r.1.fsm.connect r.2 f.size last) (t := c :: c2 :: cs) (c := last) (src := (· = r.2))
      (k1.wf.connect k3 (by have := k1.size_lt; omega) (by omega)) k1.raw k1.init_eq k1.fin_eq rfl hl256 gE
      (.inr ⟨r.2, k2, rfl, ?_⟩) ?_).congr_det false⟩
    · rw [k4, g3, ← hsplit]; simp
    · intro q hq
      rw [← hsplit]
      refine .step (by omega) ((gE _ _ _).2 (.inl (k6 _ _ _ (g4 q hq)))) ?_
      exact (k5.mono fun a d b e => (gE _ _ _).2 (.inl e)).snoc (by omega) ((gE _ _ _).2 (.inr ⟨rfl, rfl, rfl⟩))

theorem asInv_loop {f : Fsm} (hf : f.WF) {T0 T : List (List Nat)} {st : ASt} {π : Nat → List Nat}
    (h : ASInv f T0 st π) (hT : ∀ t ∈ T, t ≠ [] ∧ ∀ c ∈ t, c < 256) :
    ∃ π', ASInv f (T0 ++ T) (T.foldl (asStep f.size) st) π' := by
  induction T generalizing T0 st π with
  | nil => exact ⟨π, by simpa using h⟩
  | cons t T ih =>
    have ht := hT t (by simp)
    obtain ⟨π1, h1⟩ := asStep_inv hf h ht.1 ht.2
    obtain ⟨π2, h2⟩ := ih h1 (fun t ht => hT t (by simp [ht]))
    exact ⟨π2, by simpa using h2⟩

theorem appendStrings_none {f : Fsm} {T : List (List Nat)} : f.appendStrings T = none ↔ [] ∈ T := by
  unfold appendStrings
  constructor
  · intro h
    split at h
    · rename_i h1
      obtain ⟨t, ht, he⟩ := List.any_eq_true.1 h1
      rw [List.isEmpty_iff] at he; subst he; exact ht
    · cases h
  · intro h
    rw [if_pos]
    exact List.any_eq_true.2 ⟨[], h, rfl⟩

theorem appendStrings_spec {f g : Fsm} (hf : f.WF) (hraw : f.Raw) {T : List (List Nat)}
    (hb : ∀ t ∈ T, ∀ c ∈ t, c < 256) (hg : f.appendStrings T = some g) :
    g.WF ∧ g.Raw ∧ g.Lang = f.Lang * oneOf T ∧ g.initial ∉ g.finals := by
  have hne : ∀ t ∈ T, t ≠ [] := by
    intro t ht he
    subst he
    rw [appendStrings_none.2 ht] at hg; cases hg
  have hi := hf.init_lt
  have h0 : ASInv f [] { fsm := f.resize (f.size + 1), start := fun _ => 0, ltr := fun _ _ => 0 } (fun _ => []) := by
    have hE := resize_edge hf (n := f.size + 1) (by omega)
    refine ⟨hf.resize (by omega), hraw, rfl, rfl, by simp, ?_, ?_, ?_, ?_, ?_⟩
    · intro q c p e; simp only [hE]; exact e
    · intro q c p e; simp only [hE] at e; exact .inl e
    all_goals simp
  obtain ⟨π, h⟩ := asInv_loop hf h0 (T := T) (fun t ht => ⟨hne t ht, hb t ht⟩)
  rw [List.nil_append] at h
  unfold appendStrings at hg
  split at hg
  · cases hg
  · simp only [resize_size, Nat.add_sub_cancel, Option.some.injEq] at hg
    set st := T.foldl (asStep f.size) { fsm := f.resize (f.size + 1), start := fun _ => 0, ltr := fun _ _ => 0 } with hst
    have gE : g.Edge = st.fsm.Edge := by rw [← hg]; exact edge_congr rfl rfl
    have gF : g.finals = {f.size} := by rw [← hg]; simp [setFinal, clearFinal]
    have gI : g.initial = f.initial := by rw [← hg]; exact h.init_eq
    have gw : g.WF := by
      rw [← hg]; exact h.wf.clearFinal.setFinal h.size_lt
    refine ⟨gw, by rw [← hg]; exact h.raw, ?_, ?_⟩
    · ext w
      rw [mem_lang, gI, gF, gE, Language.mem_mul]
      have endstuck : ∀ {w p}, Run st.fsm.Edge f.size w p → w = [] ∧ p = f.size := by
        intro w p hr
        apply hr.stuck
        intro c b e
        rcases h.sound _ _ _ e with e | ⟨_, h1 | h1 | h1 | h1⟩
        · have := (hf.edge_lt e).1; omega
        · have := hf.fin_lt _ h1.1; omega
        · have := hf.fin_lt _ h1.1; omega
        · omega
        · omega
      have trie : ∀ {q w p}, Run st.fsm.Edge q w p → f.size < q → p = f.size → π q ++ w ∈ T := by
        intro q w p hr
        induction hr with
        | refl => intro h1 h2; omega
        | eps e _ ih =>
          intro hq hp
          rcases h.sound _ _ _ e with e | ⟨hc, _⟩
          · have := (hf.edge_lt e).1; omega
          · exact absurd rfl hc
        | @step q c q' w p hc e h' ih =>
          intro hq hp
          rcases h.sound _ _ _ e with e | ⟨_, h1 | h1 | h1 | h1⟩
          · have := (hf.edge_lt e).1; omega
          · have := hf.fin_lt _ h1.1; omega
          · have := hf.fin_lt _ h1.1; omega
          · obtain ⟨_, rfl, h3⟩ := h1
            rw [(endstuck h').1]; exact h3
          · have := ih h1.2.1 hp
            rw [h1.2.2] at this
            simpa using this
      constructor
      · rintro ⟨p, hp, hr⟩
        simp only [Finset.mem_singleton] at hp
        have key : ∀ {q w p}, Run st.fsm.Edge q w p → q < f.size → p = f.size →
            ∃ u v, w = u ++ v ∧ (∃ r ∈ f.finals, Run f.Edge q u r) ∧ v ∈ T := by
          intro q w p hr
          induction hr with
          | refl => intro h1 h2; omega
          | eps e _ ih =>
            intro hq hp
            rcases h.sound _ _ _ e with e | ⟨hc, _⟩
            · obtain ⟨u, v, hw, ⟨r, hr, hrun⟩, hv⟩ := ih (hf.edge_lt e).2.2 hp
              exact ⟨u, v, hw, ⟨r, hr, .eps e hrun⟩, hv⟩
            · exact absurd rfl hc
          | @step q c q' w p hc e h' ih =>
            intro hq hp
            rcases h.sound _ _ _ e with e | ⟨_, h1 | h1 | h1 | h1⟩
            · obtain ⟨u, v, hw, ⟨r, hr, hrun⟩, hv⟩ := ih (hf.edge_lt e).2.2 hp
              exact ⟨c :: u, v, by simp [hw], ⟨r, hr, .step hc e hrun⟩, hv⟩
            · obtain ⟨h2, rfl, h3⟩ := h1
              exact ⟨[], [c], by simp [(endstuck h').1], ⟨q, h2, .refl _⟩, h3⟩
            · obtain ⟨h2, h3, h4⟩ := h1
              have := trie h' h3 hp
              rw [h4] at this
              exact ⟨[], c :: w, rfl, ⟨q, h2, .refl _⟩, by simpa using this⟩
            · omega
            · omega
        obtain ⟨u, v, hw, hu, hv⟩ := key hr hi hp
        exact ⟨u, hu, v, hv, hw.symm⟩
      · rintro ⟨u, ⟨r, hr, hrun⟩, v, hv, rfl⟩
        exact ⟨f.size, by simp, (hrun.mono fun a c b e => h.old _ _ _ e).trans (h.complete v hv r hr)⟩
    · rw [gF, gI]; simp; omega

end Fsm
end Pire
