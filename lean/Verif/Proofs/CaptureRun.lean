import Verif.Proofs.CaptureSlow

/-!
# `SlowCapturingScanner`: what the list of threads is after a text
-/

namespace Pire
namespace Capture
open Spec

variable {t : Table} {n : Nat} {J : Nat → Nat → List (Nat × Nat)} {F : Nat → Bool}

/-! ### Matches -/

/-- The state is final, perhaps after an epsilon. -/
def Fin1 (J : Nat → Nat → List (Nat × Nat)) (F : Nat → Bool) (p : Nat) : Prop := F p = true ∨ ∃ e ∈ J p 257, F e.1 = true

/-- The state is final, or becomes so after the end mark. -/
def MatchedAt (J : Nat → Nat → List (Nat × Nat)) (F : Nat → Bool) (q : Nat) : Prop := F q = true ∨ ∃ tr ∈ J q 259, Fin1 J F tr.1

theorem inner_spec (h : TRepr t n J F) (st : Single) (tr : Nat × Nat) : ∀ (es : List (Nat × Nat)) (m : Bool), (∀ e ∈ es, e.1 < n) →
    ∃ c m', Table.captured.inner t st tr es m = some (c, m') ∧ (c = true ↔ (st.beg ≠ npos ∨ tr.2 &&& 3 ≠ 0) ∧ ∃ e ∈ es, F e.1 = true) ∧
      (m' = true ↔ m = true ∨ ∃ e ∈ es, F e.1 = true) := by
  intro es
  induction es with
  | nil => intro m _; exact ⟨false, m, rfl, by simp, by simp⟩
  | cons e es ih =>
    intro m he
    have e1 := h.final e.1 (he e (List.mem_cons_self ..))
    unfold Table.captured.inner
    rw [e1, Option.bind_some]
    cases hF : F e.1 with
    | true =>
      rw [if_pos rfl]
      by_cases hb : st.beg ≠ npos ∨ tr.2 &&& 3 ≠ 0
      · rw [if_pos hb]
        exact ⟨true, true, rfl, by simp [hF]; simpa using hb, by simp [hF]⟩
      · rw [if_neg hb]
        obtain ⟨c, m', e2, h1, h2⟩ := ih true fun x hx => he x (List.mem_cons_of_mem _ hx)
        refine ⟨c, m', e2, ?_, ?_⟩
        · rw [h1]; simp only [hb, false_and]
        · rw [h2]; simp [hF]
    | false =>
      rw [if_neg (by simp)]
      obtain ⟨c, m', e2, h1, h2⟩ := ih m fun x hx => he x (List.mem_cons_of_mem _ hx)
      refine ⟨c, m', e2, ?_, ?_⟩
      · rw [h1]; simp [hF]
      · rw [h2]; simp [hF]

theorem loop_spec (h : TRepr t n J F) (st : Single) : ∀ (trs : List (Nat × Nat)) (m : Bool), (∀ e ∈ trs, e.1 < n) →
    ∃ c m', Table.captured.loop t st trs m = some (c, m') ∧ (c = true ↔ ∃ tr ∈ trs, (st.beg ≠ npos ∨ tr.2 &&& 3 ≠ 0) ∧ Fin1 J F tr.1) ∧
      (m' = true ↔ m = true ∨ ∃ tr ∈ trs, Fin1 J F tr.1) := by
  intro trs
  induction trs with
  | nil => intro m _; exact ⟨false, m, rfl, by simp, by simp⟩
  | cons tr trs ih =>
    intro m he
    have hlt := he tr (List.mem_cons_self ..)
    have e1 := h.final tr.1 hlt
    unfold Table.captured.loop
    rw [e1, Option.bind_some]
    cases hF : F tr.1 with
    | true =>
      have hf1 : Fin1 J F tr.1 := .inl hF
      rw [if_pos rfl]
      by_cases hb : st.beg ≠ npos ∨ tr.2 &&& 3 ≠ 0
      · rw [if_pos hb]
        refine ⟨true, true, rfl, ?_, ?_⟩
        · simp only [true_iff]; exact ⟨tr, List.mem_cons_self .., hb, hf1⟩
        · simp only [true_iff]; exact .inr ⟨tr, List.mem_cons_self .., hf1⟩
      · rw [if_neg hb]
        obtain ⟨c, m', e2, h1, h2⟩ := ih true fun x hx => he x (List.mem_cons_of_mem _ hx)
        refine ⟨c, m', e2, ?_, ?_⟩
        · rw [h1]; simp only [List.exists_mem_cons_iff, hb, false_and, false_or]
        · rw [h2]; simp only [List.exists_mem_cons_iff, hf1, true_or, or_true]
    | false =>
      rw [if_neg (by simp), h.next _ hlt _ (by decide), Option.bind_some]
      obtain ⟨c, m', e2, h1, h2⟩ := inner_spec h st tr (J tr.1 257) m (h.lt _ hlt _ (by omega))
      have hf1 : Fin1 J F tr.1 ↔ ∃ e ∈ J tr.1 257, F e.1 = true := by unfold Fin1; simp [hF]
      rw [e2, Option.bind_some]
      cases c with
      | true =>
        rw [if_pos rfl]
        have := h1.1 rfl
        refine ⟨true, m', rfl, ?_, ?_⟩
        · simp only [true_iff]; exact ⟨tr, List.mem_cons_self .., this.1, hf1.2 this.2⟩
        · rw [h2]
          have hx := hf1.2 this.2
          simp only [List.exists_mem_cons_iff, hx, this.2, true_or, or_true]
      | false =>
        rw [if_neg (by simp)]
        obtain ⟨c', m'', e3, h3, h4⟩ := ih m' fun x hx => he x (List.mem_cons_of_mem _ hx)
        refine ⟨c', m'', e3, ?_, ?_⟩
        · rw [h3]
          have hno : ¬ ((st.beg ≠ npos ∨ tr.2 &&& 3 ≠ 0) ∧ Fin1 J F tr.1) := by
            rw [hf1]; intro hx; have := h1.2 hx; cases this
          simp only [List.exists_mem_cons_iff, hno, false_or]
        · rw [h4, h2]
          simp only [List.exists_mem_cons_iff, hf1]
          exact or_assoc

/-- `Captured`. -/
theorem captured_spec (h : TRepr t n J F) (st : Single) (hst : st.num < n) : ∃ c m, t.captured st = some (c, m) ∧ (m = true ↔ MatchedAt J F st.num) ∧
    (c = true ↔ (st.beg ≠ npos ∧ MatchedAt J F st.num) ∨ ∃ tr ∈ J st.num 259, tr.2 &&& 3 ≠ 0 ∧ Fin1 J F tr.1) := by
  unfold Table.captured
  rw [h.final _ hst, Option.bind_some]
  by_cases hb : F st.num = true ∧ st.beg ≠ npos
  · rw [if_pos hb]
    have hm : MatchedAt J F st.num := .inl hb.1
    refine ⟨true, true, rfl, by simp [hm], ?_⟩
    simp only [true_iff]
    exact .inl ⟨hb.2, hm⟩
  · rw [if_neg hb, h.next _ hst _ (by decide), Option.bind_some]
    obtain ⟨c, m, e, h1, h2⟩ := loop_spec h st (J st.num 259) (F st.num) (h.lt _ hst _ (by omega))
    refine ⟨c, m, e, h2, ?_⟩
    rw [h1]
    constructor
    · rintro ⟨tr, hm, hb' | hb', hf⟩
      · exact .inl ⟨hb', .inr ⟨tr, hm, hf⟩⟩
      · exact .inr ⟨tr, hm, hb', hf⟩
    · rintro (⟨hb', hF | ⟨tr, hm, hf⟩⟩ | ⟨tr, hm, hb', hf⟩)
      · exact absurd ⟨hF, hb'⟩ hb
      · exact ⟨tr, hm, .inl hb', hf⟩
      · exact ⟨tr, hm, .inr hb', hf⟩

/-- `UpdateNList`: everything is added, up to the first state that matches. -/
theorem pushAll_spec (h : TRepr t n J F) : ∀ (l : List Single) (s : SState), (∀ x ∈ l, x.num < n) →
    ∃ s' pre, t.pushAll s l = some s' ∧ s'.pos = s.pos ∧ s'.states = s.states ++ pre ∧ pre <+: l ∧
      ((s'.matched = s.matched ∧ pre = l ∧ ∀ x ∈ l, ¬ MatchedAt J F x.num) ∨ ∃ x ∈ pre, s'.matched = some x ∧ MatchedAt J F x.num) := by
  intro l
  induction l with
  | nil => intro s _; exact ⟨s, [], rfl, rfl, by simp, List.prefix_refl _, .inl ⟨rfl, rfl, by simp⟩⟩
  | cons x l ih =>
    intro s hl
    obtain ⟨c, m, e, h1, -⟩ := captured_spec h x (hl x (List.mem_cons_self ..))
    unfold Table.pushAll
    rw [e, Option.bind_some]
    cases m with
    | true =>
      rw [if_pos rfl]
      exact ⟨_, [x], rfl, rfl, rfl, by simp, .inr ⟨x, by simp, rfl, h1.1 rfl⟩⟩
    | false =>
      rw [if_neg (by simp)]
      obtain ⟨s', pre, e', e1, e2, e3, e4⟩ := ih { s with states := s.states ++ [x] } fun y hy => hl y (List.mem_cons_of_mem _ hy)
      refine ⟨s', x :: pre, e', e1, by rw [e2]; simp, (List.cons_prefix_cons).2 ⟨rfl, e3⟩, ?_⟩
      rcases e4 with ⟨a1, a2, a3⟩ | ⟨y, hy, a1, a2⟩
      · refine .inl ⟨a1, by rw [a2], fun y hy => ?_⟩
        rcases List.mem_cons.1 hy with rfl | hy
        · intro hm; have := h1.2 hm; cases this
        · exact a3 y hy
      · exact .inr ⟨y, List.mem_cons_of_mem _ hy, a1, a2⟩

/-! ### The invariant -/

/-- What the lists of transitions are. -/
structure Edges (n : Nat) (J : Nat → Nat → List (Nat × Nat)) (E : Nat → Nat → Nat → Prop) (A : Nat → Nat → Nat) : Prop where
  mem : ∀ q < n, ∀ c < 264, ∀ tr, tr ∈ J q c ↔ E q c tr.1 ∧ tr.2 = A q tr.1
  lt : ∀ q c p, E q c p → q < n

variable {E : Nat → Nat → Nat → Prop} {A : Nat → Nat → Nat} {S : Nat → Prop}

/-- The thread is a way to read the text, its positions are those of the first "begin" and the first "end". -/
def Valid (E : Nat → Nat → Nat → Prop) (A : Nat → Nat → Nat) (S : Nat → Prop) (w : List Nat) (s : Single) : Prop :=
  ∃ tr, Thread E A S w s.num tr ∧ opt s.beg = firstWith 0 tr ∧ opt s.fin = firstWith 1 tr

theorem firstWith_snoc (b : Nat) (tr : List (Nat × Nat)) (x : Nat × Nat) :
    firstWith b (tr ++ [x]) = (firstWith b tr).or (if x.2.testBit b = true then some x.1 else none) := by
  unfold firstWith
  rw [List.find?_append]
  cases h : tr.find? fun x => x.2.testBit b with
  | some y => simp
  | none =>
    simp only [Option.none_or, Option.map_none, List.find?_cons, List.find?_nil]
    cases x.2.testBit b <;> simp

theorem advance_beg (cur : Single) {pos : Nat} (hp : pos < npos) (tr : Nat × Nat) :
    opt (advance cur pos tr).beg = (opt cur.beg).or (if tr.2.testBit 0 = true then some pos else none) ∧
    opt (advance cur pos tr).fin = (opt cur.fin).or (if tr.2.testBit 1 = true then some pos else none) := by
  have b0 : (tr.2 &&& 1 ≠ 0) ↔ tr.2.testBit 0 = true := Count.bit_ne tr.2 0
  have b1 : (tr.2 &&& 2 ≠ 0) ↔ tr.2.testBit 1 = true := by have := Count.bit_ne tr.2 1; simpa using this
  have hp' : pos ≠ npos := Nat.ne_of_lt hp
  unfold advance Single.setBegin Single.setEnd Single.mk0
  simp only [b0, b1]
  by_cases h0 : cur.beg = npos <;> by_cases h1 : cur.fin = npos <;> by_cases h2 : tr.2.testBit 0 = true <;> by_cases h3 : tr.2.testBit 1 = true <;>
    simp [h0, h1, h2, h3, opt, hp']

theorem Valid.path (hE : Edges n J E A) (h : TRepr t n J F) {w : List Nat} {cur s : Single} {c : Nat} (hcur : Valid E A S w cur) (hq : cur.num < n)
    (hc : IsLetter c) (hl : w.length + 1 < npos) (hp : Path J (w.length + 1) cur c s) : s.num < n ∧ Valid E A S (w ++ [c]) s := by
  induction hp with
  | @one tr htr =>
    obtain ⟨tr0, h0, h1, h2⟩ := hcur
    have hm := (hE.mem _ hq _ hc.1 tr).1 htr
    obtain ⟨a1, a2⟩ := advance_beg cur hl tr
    refine ⟨by rw [advance_num]; exact h.lt _ hq _ hc.1 _ htr, tr0 ++ [(w.length + 1, A cur.num tr.1)], by rw [advance_num]; exact .step h0 hc.2 hm.1, ?_, ?_⟩
    · rw [a1, firstWith_snoc, h1, hm.2]
    · rw [a2, firstWith_snoc, h2, hm.2]
  | @eps s tr _ htr ih =>
    obtain ⟨hs, tr0, h0, h1, h2⟩ := ih
    have hm := (hE.mem _ hs _ (by omega) tr).1 htr
    obtain ⟨a1, a2⟩ := advance_beg s hl tr
    have hlen : (w ++ [c]).length = w.length + 1 := by simp
    refine ⟨by rw [advance_num]; exact h.lt _ hs _ (by omega) _ htr, tr0 ++ [((w ++ [c]).length, A s.num tr.1)],
      by rw [advance_num]; exact .eps h0 hm.1, ?_, ?_⟩
    · rw [a1, firstWith_snoc, h1, hm.2, hlen]
    · rw [a2, firstWith_snoc, h2, hm.2, hlen]

theorem Valid.start (hE : Edges n J E A) (h : TRepr t n J F) {r : Nat} (hr : r < n) (hS : S r) {s : Single} (hp : Path J 0 (Single.mk0 r) 258 s) :
    s.num < n ∧ Valid E A S [] s := by
  have hpos : (0 : Nat) < npos := by unfold npos; omega
  induction hp with
  | @one tr htr =>
    have hm := (hE.mem _ hr _ (by omega) tr).1 htr
    obtain ⟨a1, a2⟩ := advance_beg (Single.mk0 r) hpos tr
    have e : opt npos = none := opt_npos
    refine ⟨by rw [advance_num]; exact h.lt _ hr _ (by omega) _ htr, [(0, A r tr.1)], by rw [advance_num]; exact .start hS hm.1, ?_, ?_⟩
    · rw [a1]
      show (opt npos).or _ = firstWith 0 ([] ++ [_])
      rw [firstWith_snoc, e, hm.2]; rfl
    · rw [a2]
      show (opt npos).or _ = firstWith 1 ([] ++ [_])
      rw [firstWith_snoc, e, hm.2]; rfl
  | @eps s tr _ htr ih =>
    obtain ⟨hs, tr0, h0, h1, h2⟩ := ih
    have hm := (hE.mem _ hs _ (by omega) tr).1 htr
    obtain ⟨a1, a2⟩ := advance_beg s hpos tr
    refine ⟨by rw [advance_num]; exact h.lt _ hs _ (by omega) _ htr, tr0 ++ [(0, A s.num tr.1)], by rw [advance_num]; exact .eps h0 hm.1, ?_, ?_⟩
    · rw [a1, firstWith_snoc, h1, hm.2]
    · rw [a2, firstWith_snoc, h2, hm.2]

/-- The state while the threads over the text `w` are collected; `used` is the set of states met. -/
structure LInv (n : Nat) (J : Nat → Nat → List (Nat × Nat)) (F : Nat → Bool) (E : Nat → Nat → Nat → Prop) (A : Nat → Nat → Nat) (S : Nat → Prop)
    (w : List Nat) (s : SState) (used : Nat → Bool) : Prop where
  pos : s.pos = w.length
  valid : ∀ x ∈ s.states, x.num < n ∧ Valid E A S w x ∧ used x.num = true
  nodup : (s.states.map Single.num).Nodup
  matched : ∀ m, s.matched = some m → MatchedAt J F m.num ∧ m.num < n ∧ ∃ u, u <+: w ∧ Valid E A S u m
  none : s.matched = none → ∀ q, used q = true → q ∈ s.states.map Single.num ∧ ¬ MatchedAt J F q
  closed : ∀ q, used q = true → q < n ∧ ∀ tr ∈ J q 257, used tr.1 = true

theorem update_spec (h : TRepr t n J F) {w : List Nat} {s : SState} {used used' : Nat → Bool} {g : Groups} {new : List Single} (hi : LInv n J F E A S w s used)
    (hg : g.all.Perm new) (hn : (new.map Single.num).Nodup) (hf : ∀ x ∈ new, used x.num = false ∧ x.num < n ∧ Valid E A S w x)
    (hu : ∀ q, used' q = true ↔ used q = true ∨ q ∈ new.map Single.num) (he : ∀ x ∈ new, ∀ tr ∈ J x.num 257, used' tr.1 = true) :
    ∃ s', t.update s g = some s' ∧ LInv n J F E A S w s' used' ∧ (s.matched.isSome = true → s'.matched.isSome = true) := by
  have hmem : ∀ x, x ∈ g.all ↔ x ∈ new := fun x => hg.mem_iff
  obtain ⟨s', pre, e, e1, e2, e3, e4⟩ := pushAll_spec h g.all s fun x hx => (hf x ((hmem x).1 hx)).2.1
  refine ⟨s', e, ⟨by rw [e1]; exact hi.pos, ?_, ?_, ?_, ?_, ?_⟩, ?_⟩
  · intro x hx
    rw [e2, List.mem_append] at hx
    rcases hx with hx | hx
    · obtain ⟨a, b, c⟩ := hi.valid x hx
      exact ⟨a, b, (hu _).2 (.inl c)⟩
    · have hx' := (hmem x).1 (e3.subset hx)
      obtain ⟨a, b, c⟩ := hf x hx'
      exact ⟨b, c, (hu _).2 (.inr (List.mem_map.2 ⟨x, hx', rfl⟩))⟩
  · rw [e2, List.map_append, List.nodup_append]
    refine ⟨hi.nodup, ?_, ?_⟩
    · have h1 : (g.all.map Single.num).Nodup := (hg.map _).nodup_iff.2 hn
      exact h1.sublist (e3.sublist.map _)
    · intro a ha b hb hab
      obtain ⟨x, hx, rfl⟩ := List.mem_map.1 ha
      obtain ⟨y, hy, rfl⟩ := List.mem_map.1 hb
      have h1 := (hi.valid x hx).2.2
      have h2 := (hf y ((hmem y).1 (e3.subset hy))).1
      rw [hab, h2] at h1; cases h1
  · intro m hm
    rcases e4 with ⟨a1, -, -⟩ | ⟨x, hx, a1, a2⟩
    · exact hi.matched m (by rw [← a1]; exact hm)
    · rw [a1] at hm
      injection hm with hm
      subst hm
      obtain ⟨-, b, c⟩ := hf x ((hmem x).1 (e3.subset hx))
      exact ⟨a2, b, w, List.prefix_refl _, c⟩
  · intro hm q hq
    rcases e4 with ⟨a1, a2, a3⟩ | ⟨x, -, a1, -⟩
    · rw [e2, List.map_append, List.mem_append, a2]
      rcases (hu q).1 hq with hq | hq
      · obtain ⟨b1, b2⟩ := hi.none (by rw [← a1]; exact hm) q hq
        exact ⟨.inl b1, b2⟩
      · have hq' : q ∈ g.all.map Single.num := (hg.map _).mem_iff.2 hq
        obtain ⟨x, hx, rfl⟩ := List.mem_map.1 hq'
        exact ⟨.inr hq', a3 x hx⟩
    · rw [a1] at hm; cases hm
  · intro q hq
    rcases (hu q).1 hq with hq | hq
    · obtain ⟨a, b⟩ := hi.closed q hq
      exact ⟨a, fun tr htr => (hu _).2 (.inl (b tr htr))⟩
    · obtain ⟨x, hx, rfl⟩ := List.mem_map.1 hq
      exact ⟨(hf x hx).2.1, he x hx⟩
  · intro hm
    rcases e4 with ⟨a1, -, -⟩ | ⟨x, -, a1, -⟩
    · rw [a1]; exact hm
    · rw [a1]; rfl

theorem nextLoop_spec (hE : Edges n J E A) (h : TRepr t n J F) {w : List Nat} {c : Nat} (hc : IsLetter c) (hl : w.length + 1 < npos) :
    ∀ (cs : List Single) (s : SState) (used : Nat → Bool), (∀ x ∈ cs, x.num < n ∧ Valid E A S w x) → LInv n J F E A S (w ++ [c]) s used →
    ∃ r, t.nextLoop c cs (s, used) = some r ∧ LInv n J F E A S (w ++ [c]) r.1 r.2 ∧ (∀ x ∈ cs, ∀ tr ∈ J x.num c, r.2 tr.1 = true) ∧
      (∀ q, used q = true → r.2 q = true) ∧ (s.matched.isSome = true → r.1.matched.isSome = true) := by
  intro cs
  induction cs with
  | nil => intro s used _ hi; exact ⟨_, rfl, hi, by simp, fun _ h => h, fun h => h⟩
  | cons cur cs ih =>
    intro s used hcs hi
    obtain ⟨hcur, hv⟩ := hcs cur (List.mem_cons_self ..)
    have hpos : s.pos = w.length + 1 := by rw [hi.pos]; simp
    obtain ⟨r, new, e, hx⟩ := explore_spec h s.pos (t.statesCount + 1) (⟨[], [], []⟩, used) cur c hcur hc.1
      (by have := unused_le (n := n) used; rw [h.states]; simp only; omega)
    have hfresh : ∀ x ∈ new, used x.num = false ∧ x.num < n ∧ Valid E A S (w ++ [c]) x := by
      intro x hxn
      obtain ⟨a, b, p⟩ := hx.fresh x hxn
      rw [hpos] at p
      exact ⟨a, b, (hv.path hE h hcur hc hl p).2⟩
    obtain ⟨s', e', hi', hm'⟩ := update_spec h hi (by simpa [Groups.all] using hx.all) hx.nodup hfresh hx.used hx.eps
    obtain ⟨r', e'', hi'', h1, h2, h3⟩ := ih s' r.2 (fun x hx => hcs x (List.mem_cons_of_mem _ hx)) hi'
    refine ⟨r', ?_, hi'', ?_, ?_, fun hm => h3 (hm' hm)⟩
    · unfold Table.nextLoop
      simp only
      rw [e, Option.bind_some, e', Option.bind_some, e'']
    · intro x hxm tr htr
      rcases List.mem_cons.1 hxm with rfl | hxm
      · exact h2 _ (hx.one tr htr)
      · exact h1 x hxm tr htr
    · intro q hq
      exact h2 _ ((hx.used q).2 (.inl hq))

/-- The state after the text `w`. -/
structure Inv (n : Nat) (J : Nat → Nat → List (Nat × Nat)) (F : Nat → Bool) (E : Nat → Nat → Nat → Prop) (A : Nat → Nat → Nat) (S : Nat → Prop)
    (w : List Nat) (s : SState) : Prop where
  pos : s.pos = w.length
  valid : ∀ x ∈ s.states, x.num < n ∧ Valid E A S w x
  nodup : (s.states.map Single.num).Nodup
  matched : ∀ m, s.matched = some m → MatchedAt J F m.num ∧ m.num < n ∧ ∃ u, u <+: w ∧ Valid E A S u m
  none : s.matched = none → (∀ q tr, Thread E A S w q tr → q ∈ s.states.map Single.num) ∧ ∀ u, u <+: w → ∀ q tr, Thread E A S u q tr → ¬ MatchedAt J F q

theorem thread_lt (hE : Edges n J E A) (h : TRepr t n J F) {w : List Nat} (hw : IsWord w) {q : Nat} {tr : List (Nat × Nat)} (ht : Thread E A S w q tr) : q < n := by
  cases ht with
  | start _ he => exact h.lt _ (hE.lt _ _ _ he) 258 (by omega) _ ((hE.mem _ (hE.lt _ _ _ he) 258 (by omega) (q, A _ q)).2 ⟨he, rfl⟩)
  | eps _ he => exact h.lt _ (hE.lt _ _ _ he) 257 (by omega) _ ((hE.mem _ (hE.lt _ _ _ he) 257 (by omega) (q, A _ q)).2 ⟨he, rfl⟩)
  | @step w q' tr c p _ hc he =>
    have hc' : c < 264 := (hw c (by simp)).1
    exact h.lt _ (hE.lt _ _ _ he) c hc' _ ((hE.mem _ (hE.lt _ _ _ he) c hc' (q, A _ q)).2 ⟨he, rfl⟩)

theorem next_spec (hE : Edges n J E A) (h : TRepr t n J F) {w : List Nat} {c : Nat} (hc : IsLetter c) (hl : w.length + 1 < npos) {s : SState}
    (hi : Inv n J F E A S w s) : ∃ s', t.next s c = some s' ∧ Inv n J F E A S (w ++ [c]) s' := by
  have hpos : (s.pos + 1) % 2 ^ 64 = w.length + 1 := by rw [hi.pos]; unfold npos at hl; omega
  have h0 : LInv n J F E A S (w ++ [c]) { states := [], pos := (s.pos + 1) % 2 ^ 64, matched := s.matched } (fun _ => false) := by
    refine ⟨by rw [hpos]; simp, by simp, by simp, ?_, by simp, by simp⟩
    intro m hm
    obtain ⟨a, b, u, hu, hv⟩ := hi.matched m hm
    exact ⟨a, b, u, hu.trans (List.prefix_append _ _), hv⟩
  obtain ⟨r, e, hr, h1, -, h3⟩ := nextLoop_spec hE h hc hl s.states _ _ hi.valid h0
  refine ⟨r.1, by unfold Table.next; rw [e]; rfl, hr.pos, fun x hx => ⟨(hr.valid x hx).1, (hr.valid x hx).2.1⟩, hr.nodup, hr.matched, fun hm => ?_⟩
  have hm0 : s.matched = Option.none := by
    cases hs : s.matched with
    | none => rfl
    | some m => have := h3 (by simp [hs]); rw [hm] at this; cases this
  obtain ⟨hall, hno⟩ := hi.none hm0
  have hused : ∀ q tr, Thread E A S (w ++ [c]) q tr → r.2 q = true := by
    intro q tr ht
    generalize hW : w ++ [c] = W at ht
    induction ht with
    | start _ _ => exact absurd hW (by simp)
    | @eps W q tr p ht he ih =>
      obtain ⟨hq, hcl⟩ := hr.closed q (ih hW)
      exact hcl (p, A q p) ((hE.mem q hq 257 (by omega) _).2 ⟨he, rfl⟩)
    | @step W q tr c' p ht hc' he _ =>
      obtain ⟨rfl, hcc⟩ := List.append_inj' hW rfl
      obtain rfl : c = c' := by simpa using hcc
      obtain ⟨x, hx, hxq⟩ := List.mem_map.1 (hall q tr ht)
      subst hxq
      exact h1 x hx (p, A x.num p) ((hE.mem _ (hi.valid x hx).1 c hc.1 _).2 ⟨he, rfl⟩)
  refine ⟨fun q tr ht => (hr.none hm q (hused q tr ht)).1, ?_⟩
  intro u hu q tr ht
  rcases List.prefix_concat_iff.1 hu with rfl | hu
  · exact (hr.none hm q (hused q tr ht)).2
  · exact hno u hu q tr ht

theorem init_spec (hE : Edges n J E A) (h : TRepr t n J F) (hS : ∀ r, S r ↔ r = t.start ∨ r = 0) : ∃ s, t.initState = some s ∧ Inv n J F E A S [] s := by
  have hn : 0 < n := Nat.lt_of_le_of_lt (Nat.zero_le _) h.start_lt
  obtain ⟨r1, new1, e1, x1⟩ := explore_spec h 0 (t.statesCount + 1) (⟨[], [], []⟩, fun _ => false) (Single.mk0 t.start) 258 h.start_lt (by omega)
    (by have := unused_le (n := n) fun _ => false; rw [h.states]; simp only; omega)
  obtain ⟨r2, new2, e2, x2⟩ := explore_spec h 0 (t.statesCount + 1) r1 (Single.mk0 0) 258 hn (by omega)
    (by have := unused_le (n := n) r1.2; rw [h.states]; omega)
  have h0 : LInv n J F E A S [] { states := [], pos := 0, matched := none } (fun _ => false) := ⟨rfl, by simp, by simp, by simp, by simp, by simp⟩
  have hused : ∀ q, r2.2 q = true ↔ (fun _ => false) q = true ∨ q ∈ (new1 ++ new2).map Single.num := by
    intro q
    rw [x2.used q, x1.used q, List.map_append, List.mem_append]
    simp
  have hmono : ∀ q, r1.2 q = true → r2.2 q = true := fun q hq => (x2.used q).2 (.inl hq)
  obtain ⟨s, e, hi, -⟩ := update_spec (g := r2.1) (new := new1 ++ new2) (used' := r2.2) h h0
    (by refine x2.all.trans (List.Perm.append_right _ ?_); simpa [Groups.all] using x1.all)
    (by
      rw [List.map_append, List.nodup_append]
      refine ⟨x1.nodup, x2.nodup, fun a ha b hb hab => ?_⟩
      obtain ⟨y, hy, rfl⟩ := List.mem_map.1 hb
      have h1 := (x2.fresh y hy).1
      rw [← hab, (x1.used a).2 (.inr ha)] at h1; cases h1)
    (by
      intro x hx
      rcases List.mem_append.1 hx with hx | hx
      · exact ⟨rfl, Valid.start hE h h.start_lt ((hS _).2 (.inl rfl)) (x1.fresh x hx).2.2⟩
      · exact ⟨rfl, Valid.start hE h hn ((hS _).2 (.inr rfl)) (x2.fresh x hx).2.2⟩)
    hused
    (by
      intro x hx tr htr
      rcases List.mem_append.1 hx with hx | hx
      · exact hmono _ (x1.eps x hx tr htr)
      · exact x2.eps x hx tr htr)
  refine ⟨s, ?_, hi.pos, fun x hx => ⟨(hi.valid x hx).1, (hi.valid x hx).2.1⟩, hi.nodup, hi.matched, fun hm => ?_⟩
  · unfold Table.initState
    rw [e1, Option.bind_some, e2, Option.bind_some, e]
  · have hu : ∀ q tr, Thread E A S [] q tr → r2.2 q = true := by
      intro q tr ht
      generalize hW : ([] : List Nat) = W at ht
      induction ht with
      | @start r p hr he =>
        have hm : (p, A r p) ∈ J r 258 := (hE.mem r (hE.lt _ _ _ he) 258 (by omega) _).2 ⟨he, rfl⟩
        rcases (hS r).1 hr with rfl | rfl
        · exact hmono _ (x1.one (p, _) hm)
        · exact x2.one (p, _) hm
      | @eps W q tr p ht he ih =>
        obtain ⟨hq, hcl⟩ := hi.closed q (ih hW)
        exact hcl (p, A q p) ((hE.mem q hq 257 (by omega) _).2 ⟨he, rfl⟩)
      | step _ _ _ _ => exact absurd hW (by simp)
    refine ⟨fun q tr ht => (hi.none hm q (hu q tr ht)).1, ?_⟩
    intro u hup q tr ht
    rw [List.prefix_nil.1 hup] at ht
    exact (hi.none hm q (hu q tr ht)).2

/-- The run over a text. -/
theorem run_spec (hE : Edges n J E A) (h : TRepr t n J F) (hS : ∀ r, S r ↔ r = t.start ∨ r = 0) (w : List Nat) (hw : IsWord w) (hl : w.length < npos) :
    ∃ s, t.run w = some s ∧ Inv n J F E A S w s := by
  obtain ⟨s0, e0, h0⟩ := init_spec hE h hS
  have key : ∀ w : List Nat, IsWord w → w.length < npos → ∃ s, w.foldlM t.next s0 = some s ∧ Inv n J F E A S w s := by
    intro w
    induction w using List.reverseRecOn with
    | nil => intro _ _; exact ⟨s0, rfl, h0⟩
    | append_singleton w c ih =>
      intro hw hl
      rw [List.length_append, List.length_singleton] at hl
      obtain ⟨s, e, hs⟩ := ih (fun x hx => hw x (List.mem_append_left _ hx)) (by omega)
      obtain ⟨s', e', hs'⟩ := next_spec hE h (hw c (by simp)) hl hs
      refine ⟨s', ?_, hs'⟩
      rw [List.foldlM_append, e]
      simp [e']
  obtain ⟨s, e, hs⟩ := key w hw hl
  exact ⟨s, by unfold Table.run; rw [e0, Option.bind_some, e], hs⟩

end Capture
end Pire
