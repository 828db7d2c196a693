import Verif.Model.Slow
import Verif.Proofs.BitSet
import Verif.Proofs.Epsilon
import Verif.Proofs.Tags
import Verif.Spec.Running

/-!
# SlowScanner: simulation of a nondeterministic automaton
-/

namespace Pire
namespace Slow

open Spec

/-- The scanner holds the graph `E` on the states `0 .. n-1`, with final states `F`. -/
structure Repr (s : Slow) (n : Nat) (E : Nat → Nat → Nat → Prop) (F : Nat → Prop) : Prop where
  states : s.statesCount = n
  start : s.start < n
  lt : ∀ q c p, E q c p → p < n
  jump : ∀ c, IsLetter c → ∃ l, s.translate c = some l ∧ ∀ q < n, ∃ ts, s.targets q l = some ts ∧ ∀ p, p ∈ ts ↔ E q c p
  final : ∀ q < n, ∃ b, s.finals[q]? = some b ∧ (b = true ↔ F q)

/-- States that `Next` can use: the list is inside of the automaton, the bit vector is long enough. -/
def Ok (n : Nat) (st : SlowState) : Prop :=
  st.flags.data.length = BitSet.roundUp (n + 1) + 1 ∧ ∀ q ∈ st.states, q < n

/-- The bits are those of the list. -/
structure VInv (n : Nat) (st : SlowState) : Prop where
  ok : Ok n st
  nodup : st.states.Nodup
  bits : ∀ p < n, (st.flags.bit p = true ↔ p ∈ st.states)

variable {s : Slow} {n : Nat} {E : Nat → Nat → Nat → Prop} {F : Nat → Prop}

theorem visit_spec {st : SlowState} (h : VInv n st) {p : Nat} (hp : p < n) :
    ∃ st', visit st p = some st' ∧ VInv n st' ∧ ∀ q, q ∈ st'.states ↔ q ∈ st.states ∨ q = p := by
  have hin := BitSet.inside h.ok.1 hp.le
  unfold visit
  rw [BitSet.test_eq hin, Option.bind_eq_bind, Option.bind_some]
  cases hb : st.flags.bit p with
  | true =>
    refine ⟨st, by simp, h, fun q => ⟨.inl, fun hq => hq.elim id fun hq => ?_⟩⟩
    rw [hq]; exact (h.bits p hp).1 hb
  | false =>
    obtain ⟨fl, e1, -, e3, e4⟩ := BitSet.set_spec hin
    have hnot : p ∉ st.states := fun hx => by rw [(h.bits p hp).2 hx] at hb; cases hb
    refine ⟨{ states := st.states ++ [p], flags := fl }, by rw [e1]; rfl, ⟨⟨by rw [e3]; exact h.ok.1, ?_⟩, ?_, ?_⟩, fun q => by simp⟩
    · intro q hq
      rcases List.mem_append.1 hq with hq | hq
      · exact h.ok.2 q hq
      · rw [List.mem_singleton.1 hq]; exact hp
    · refine List.nodup_append.2 ⟨h.nodup, List.nodup_singleton _, fun a ha b hb => ?_⟩
      rw [List.mem_singleton.1 hb]; exact fun hx => hnot (hx ▸ ha)
    · intro q hq
      rw [e4, Bool.or_eq_true, h.bits q hq, List.mem_append, List.mem_singleton, decide_eq_true_iff, or_comm]

theorem visits_spec {ts : List Nat} : ∀ {st : SlowState}, VInv n st → (∀ p ∈ ts, p < n) →
    ∃ st', ts.foldlM visit st = some st' ∧ VInv n st' ∧ ∀ q, q ∈ st'.states ↔ q ∈ st.states ∨ q ∈ ts := by
  induction ts with
  | nil => intro st h _; exact ⟨st, rfl, h, fun q => by simp⟩
  | cons p ts ih =>
    intro st h hl
    obtain ⟨st1, e1, h1, m1⟩ := visit_spec h (hl p (List.mem_cons_self ..))
    obtain ⟨st2, e2, h2, m2⟩ := ih h1 fun q hq => hl q (List.mem_cons_of_mem _ hq)
    refine ⟨st2, by rw [List.foldlM_cons, e1]; exact e2, h2, fun q => ?_⟩
    rw [m2, m1, List.mem_cons]; tauto

theorem nextTranslated_go {l : Nat} {c : Nat} (hE : ∀ q c p, E q c p → p < n)
    (hj : ∀ q < n, ∃ ts, s.targets q l = some ts ∧ ∀ p, p ∈ ts ↔ E q c p) (qs : List Nat) : ∀ {st : SlowState}, VInv n st →
    (∀ q ∈ qs, q < n) → ∃ st', qs.foldlM (fun st q => do
        let ts ← s.targets q l
        ts.foldlM visit st) st = some st' ∧ VInv n st' ∧ ∀ p, p ∈ st'.states ↔ p ∈ st.states ∨ ∃ q ∈ qs, E q c p := by
  induction qs with
  | nil => intro st h _; exact ⟨st, rfl, h, fun q => by simp⟩
  | cons q qs ih =>
    intro st h hl
    obtain ⟨ts, et, mt⟩ := hj q (hl q (List.mem_cons_self ..))
    obtain ⟨st1, e1, h1, m1⟩ := visits_spec (ts := ts) h fun p hp => hE _ _ _ ((mt p).1 hp)
    obtain ⟨st2, e2, h2, m2⟩ := ih h1 fun q hq => hl q (List.mem_cons_of_mem _ hq)
    refine ⟨st2, ?_, h2, fun p => ?_⟩
    · rw [List.foldlM_cons, et, Option.bind_eq_bind, Option.bind_eq_bind, Option.bind_some, e1, Option.bind_some]
      exact e2
    · rw [m2, m1, mt]
      constructor
      · rintro ((hp | hp) | ⟨q', hq', hp⟩)
        · exact .inl hp
        · exact .inr ⟨q, List.mem_cons_self .., hp⟩
        · exact .inr ⟨q', List.mem_cons_of_mem _ hq', hp⟩
      · rintro (hp | ⟨q', hq', hp⟩)
        · exact .inl (.inl hp)
        · rcases List.mem_cons.1 hq' with rfl | hq'
          · exact .inl (.inr hp)
          · exact .inr ⟨q', hq', hp⟩

theorem vinv_clear {d : SlowState} (h : d.flags.data.length = BitSet.roundUp (n + 1) + 1) :
    VInv n { states := [], flags := d.flags.clear } := by
  refine ⟨⟨?_, by simp⟩, List.nodup_nil, fun p _ => ?_⟩
  · change (List.replicate _ _).length = _
    rw [List.length_replicate]; exact h
  · rw [BitSet.bit_clear]; simp

theorem nextInto_spec (h : Repr s n E F) {st d : SlowState} (hst : Ok n st) (hd : d.flags.data.length = BitSet.roundUp (n + 1) + 1)
    {c : Nat} (hc : IsLetter c) :
    ∃ st', s.nextInto st d c = some st' ∧ VInv n st' ∧ ∀ p, p ∈ st'.states ↔ ∃ q ∈ st.states, E q c p := by
  obtain ⟨l, el, hj⟩ := h.jump c hc
  obtain ⟨st', e, hv, hm⟩ := nextTranslated_go h.lt hj st.states (vinv_clear hd) hst.2
  refine ⟨st', ?_, hv, fun p => by rw [hm]; simp⟩
  unfold nextInto
  rw [el]; exact e

theorem ofSize_len (n : Nat) : (BitSet.ofSize n).data.length = BitSet.roundUp (n + 1) + 1 := (BitSet.ofSize_spec n).2.1

theorem next_spec (h : Repr s n E F) {st : SlowState} (hst : Ok n st) {c : Nat} (hc : IsLetter c) :
    ∃ st', s.next st c = some st' ∧ VInv n st' ∧ ∀ p, p ∈ st'.states ↔ ∃ q ∈ st.states, E q c p :=
  nextInto_spec h hst (by rw [h.states]; exact ofSize_len n) hc

/-- Cleared bit vectors of the same length are the same, up to the (never used) field `size`. -/
theorem nextInto_dest (h : Repr s n E F) {st d : SlowState} (hd : d.flags.data.length = BitSet.roundUp (n + 1) + 1) (hs : d.flags.size = n)
    (c : Nat) : s.nextInto st d c = s.next st c := by
  have : d.flags.clear = (BitSet.ofSize s.statesCount).clear := by
    unfold BitSet.clear
    rw [hd, hs, h.states, ofSize_len, (BitSet.ofSize_spec n).1]
  unfold next nextInto nextTranslated
  simp only [this]

theorem ok_initState (h : Repr s n E F) : Ok n s.initState := by
  refine ⟨by rw [← h.states]; exact ofSize_len _, fun q hq => ?_⟩
  rw [List.mem_singleton.1 hq]; exact h.start

/-! `size` is never changed. -/

theorem visit_size {st st' : SlowState} {p : Nat} (h : visit st p = some st') : st'.flags.size = st.flags.size := by
  unfold visit at h
  simp only [Option.bind_eq_bind, Option.bind_eq_some_iff] at h
  obtain ⟨b, -, h⟩ := h
  split at h
  · rw [Option.some.injEq] at h; rw [← h]
  · rw [Option.bind_eq_some_iff] at h
    obtain ⟨fl, hf, h⟩ := h
    rw [Option.some.injEq] at h; rw [← h]
    unfold BitSet.set BitSet.modify at hf
    split at hf
    · rw [Option.some.injEq] at hf; rw [← hf]
    · cases hf

theorem foldlM_keep {α β γ : Type} {g : β → α → Option β} {v : β → γ} (hg : ∀ b a b', g b a = some b' → v b' = v b) (l : List α) :
    ∀ b b', l.foldlM g b = some b' → v b' = v b := by
  induction l with
  | nil => intro b b' h; cases h; rfl
  | cons a l ih =>
    intro b b' h
    rw [List.foldlM_cons, Option.bind_eq_bind, Option.bind_eq_some_iff] at h
    obtain ⟨b1, h1, h2⟩ := h
    rw [ih _ _ h2, hg _ _ _ h1]

theorem nextInto_size {st d st' : SlowState} {c : Nat} (h : s.nextInto st d c = some st') : st'.flags.size = d.flags.size := by
  unfold nextInto nextTranslated at h
  rw [Option.bind_eq_bind, Option.bind_eq_some_iff] at h
  obtain ⟨l, -, h⟩ := h
  rw [foldlM_keep (v := fun st => st.flags.size) ?_ _ _ _ h]; rfl
  intro b a b' h
  rw [Option.bind_eq_bind, Option.bind_eq_some_iff] at h
  obtain ⟨ts, -, h⟩ := h
  exact foldlM_keep (v := fun st => st.flags.size) (fun _ _ _ => visit_size) _ _ _ h

/-- `Run<SlowScanner>` does what repeated `Next` does. -/
theorem runLoop_eq (h : Repr s n E F) : ∀ (w : List Nat) (st d : SlowState), IsWord w → Ok n st → st.flags.size = n →
    d.flags.data.length = BitSet.roundUp (n + 1) + 1 → d.flags.size = n → s.runLoop st d w = w.foldlM s.next st := by
  intro w
  induction w with
  | nil => intro st d _ _ _ _ _; rfl
  | cons c w ih =>
    intro st d hw hst hss hd hds
    have hc : IsLetter c := hw c (List.mem_cons_self ..)
    obtain ⟨st', e, hv, -⟩ := nextInto_spec h hst hd hc
    have e' := nextInto_dest h (st := st) hd hds c
    rw [List.foldlM_cons, ← e']
    unfold runLoop
    rw [e, Option.bind_eq_bind, Option.bind_some, Option.bind_some]
    exact ih st' st (fun x hx => hw x (List.mem_cons_of_mem _ hx)) hv.ok (by rw [nextInto_size e]; exact hds) hst.1 hss

theorem initState_size (s : Slow) : s.initState.flags.size = s.statesCount := (BitSet.ofSize_spec _).1

/-- Reading a word: no access is out of bounds; the states are those the graph can be in. -/
theorem after_spec (h : Repr s n E F) : ∀ (w : List Nat) (st : SlowState), IsWord w → Ok n st → st.flags.size = n →
    ∃ st', w.foldlM s.next st = some st' ∧ Ok n st' ∧ st'.flags.size = n ∧ (w ≠ [] → st'.states.Nodup) ∧
      (∀ p, p ∈ st'.states ↔ ∃ q ∈ st.states, Run (fun q c p => c ≠ 257 ∧ E q c p) q w p) ∧ s.scn.after st w = st' := by
  intro w
  induction w with
  | nil =>
    intro st _ hst hs
    refine ⟨st, rfl, hst, hs, fun h => absurd rfl h, fun p => ⟨fun hp => ⟨p, hp, .refl p⟩, ?_⟩, rfl⟩
    rintro ⟨q, hq, hr⟩
    cases hr with
    | refl => exact hq
    | eps he _ => exact absurd rfl he.1
  | cons c w ih =>
    intro st hw hst hss
    have hc : IsLetter c := hw c (List.mem_cons_self ..)
    obtain ⟨st1, e1, v1, m1⟩ := next_spec h hst hc
    have hs1 : st1.flags.size = n := by rw [nextInto_size e1, (BitSet.ofSize_spec _).1, h.states]
    obtain ⟨st2, e2, o2, s2, n2, m2, a2⟩ := ih st1 (fun x hx => hw x (List.mem_cons_of_mem _ hx)) v1.ok hs1
    have hstep : s.scn.step st c = st1 := by
      unfold Scn.step Slow.scn
      simp only [e1, Option.getD_some]
    refine ⟨st2, by rw [List.foldlM_cons, e1]; exact e2, o2, s2, fun _ => ?_, fun p => ?_, ?_⟩
    · rcases w with _ | ⟨c', w⟩
      · cases e2; exact v1.nodup
      · exact n2 (by simp)
    · rw [m2]
      constructor
      · rintro ⟨q', hq', hr⟩
        obtain ⟨q, hq, hE⟩ := (m1 q').1 hq'
        exact ⟨q, hq, .step hc.2 ⟨hc.2, hE⟩ hr⟩
      · rintro ⟨q, hq, hr⟩
        cases hr with
        | eps he _ => exact absurd rfl he.1
        | step h1 h2 h3 => exact ⟨_, (m1 _).2 ⟨q, hq, h2.2⟩, h3⟩
    · unfold Scn.after at a2 ⊢
      rw [List.foldl_cons, hstep, a2]

theorem final_go (h : Repr s n E F) : ∀ (l : List Nat), (∀ q ∈ l, q < n) →
    ∃ b, final.go s l = some b ∧ (b = true ↔ ∃ q ∈ l, F q) := by
  intro l
  induction l with
  | nil => intro _; exact ⟨false, rfl, by simp⟩
  | cons q l ih =>
    intro hl
    obtain ⟨b, e, hb⟩ := h.final q (hl q (List.mem_cons_self ..))
    obtain ⟨b', e', hb'⟩ := ih fun q hq => hl q (List.mem_cons_of_mem _ hq)
    unfold final.go
    rw [e, Option.bind_eq_bind, Option.bind_some]
    cases b with
    | true => exact ⟨true, rfl, by simp [hb.1 rfl]⟩
    | false =>
      have hn : ¬ F q := fun hx => by have := hb.2 hx; cases this
      exact ⟨b', by simpa using e', by rw [hb']; simp [hn]⟩

theorem final_spec (h : Repr s n E F) {st : SlowState} (hst : Ok n st) :
    ∃ b, s.final st = some b ∧ (b = true ↔ ∃ q ∈ st.states, F q) := final_go h _ hst.2

/-! ### Compiling -/

theorem foldl_sets_len (W : List (Nat × Nat)) : ∀ t : List Nat, (W.foldl (fun t w => t.set w.1 w.2) t).length = t.length := by
  induction W with
  | nil => intro t; rfl
  | cons w W ih => intro t; rw [List.foldl_cons, ih, List.length_set]

theorem foldl_sets (W : List (Nat × Nat)) {c i : Nat} (hf : ∀ j, (c, j) ∈ W → j = i) : ∀ t : List Nat,
    (t[c]? = some i ∨ (c < t.length ∧ (c, i) ∈ W)) → (W.foldl (fun t w => t.set w.1 w.2) t)[c]? = some i := by
  induction W with
  | nil => intro t h; exact h.elim id fun h => absurd h.2 (by simp)
  | cons w W ih =>
    intro t h
    rw [List.foldl_cons]
    refine ih (fun j hj => hf j (List.mem_cons_of_mem _ hj)) _ ?_
    by_cases hw : w.1 = c
    · left
      have hi : w.2 = i := hf _ (by rw [← hw]; exact List.mem_cons_self ..)
      have hlt : c < t.length := h.elim (fun h => (List.getElem?_eq_some_iff.1 h).1) And.left
      rw [hw, hi, List.getElem?_set_self hlt]
    · rcases h with h | ⟨h1, h2⟩
      · left; rw [List.getElem?_set_ne hw]; exact h
      · right
        refine ⟨by rw [List.length_set]; exact h1, ?_⟩
        rcases List.mem_cons.1 h2 with h2 | h2
        · exact absurd (by rw [← h2]) hw
        · exact h2

/-- The writes that make up the letter table. -/
def letterWrites (p : Partition) : List (Nat × Nat) := p.set.flatMap fun e => e.members.map fun c => (c, e.idx)

theorem foldl_foldl {α β γ δ : Type} (g : α → List β) (k : γ → δ → γ) (m : α → β → δ) (l : List α) : ∀ t : γ,
    l.foldl (fun t e => (g e).foldl (fun t c => k t (m e c)) t) t = (l.flatMap fun e => (g e).map (m e)).foldl k t := by
  induction l with
  | nil => intro t; rfl
  | cons a l ih => intro t; rw [List.foldl_cons, List.flatMap_cons, List.foldl_append, List.foldl_map, ih]

theorem letterTable_eq (p : Partition) :
    letterTable p = (letterWrites p).foldl (fun t w => t.set w.1 w.2) (List.replicate MaxChar 0) :=
  foldl_foldl (fun e : PClass => e.members) (fun (t : List Nat) (w : Nat × Nat) => t.set w.1 w.2) (fun e c => (c, e.idx)) p.set _

theorem letterTable_len (p : Partition) : (letterTable p).length = MaxChar := by
  rw [letterTable_eq, foldl_sets_len, List.length_replicate]

theorem letterTable_get {p : Partition} (h : p.WF) {e : PClass} (he : e ∈ p.set) {c : Nat} (hc : c ∈ e.members) (hlt : c < MaxChar) :
    (letterTable p)[c]? = some e.idx := by
  rw [letterTable_eq]
  refine foldl_sets _ (fun j hj => ?_) _ (.inr ⟨by rw [List.length_replicate]; exact hlt, ?_⟩)
  · unfold letterWrites at hj
    rw [List.mem_flatMap] at hj
    obtain ⟨e', he', hj⟩ := hj
    rw [List.mem_map] at hj
    obtain ⟨c', hc', hj⟩ := hj
    injection hj with h1 h2
    subst h1
    rw [← h2, h.class_unique' he he' hc hc']
  · unfold letterWrites
    rw [List.mem_flatMap]
    exact ⟨e, he, List.mem_map.2 ⟨c, hc, rfl⟩⟩

theorem foldl_push (W : List (Nat × Nat)) (i : Nat) : ∀ v : List (List Nat),
    (W.foldl (fun v w => push v w.1 w.2) v)[i]? = v[i]?.map (· ++ (W.filter fun w => w.1 = i).map Prod.snd) := by
  induction W with
  | nil => intro v; simp
  | cons w W ih =>
    intro v
    rw [List.foldl_cons, ih]
    unfold push
    rw [List.getElem?_modify]
    by_cases h : w.1 = i
    · rw [List.filter_cons_of_pos (by simpa using h)]
      generalize v[i]? = o
      cases o <;> simp [h]
    · rw [List.filter_cons_of_neg (by simpa using h)]
      generalize v[i]? = o
      cases o <;> simp [h]

theorem push_len (v : List (List Nat)) (i x : Nat) : (push v i x).length = v.length := by unfold push; simp

theorem foldl_push_len (W : List (Nat × Nat)) : ∀ v : List (List Nat), (W.foldl (fun v w => push v w.1 w.2) v).length = v.length := by
  induction W with
  | nil => intro v; rfl
  | cons w W ih => intro v; rw [List.foldl_cons, ih, push_len]

/-- The pushes that make up the jump table. -/
def jumpWrites (f : Fsm) : List (Nat × Nat) := (List.range f.size).flatMap fun fr => f.letters.set.flatMap fun e =>
  (elems (f.destinations fr e.rep)).map fun d => (fr * f.letters.size + (letterTable f.letters).getD e.rep 0, d % 2 ^ 32)

/-- The jump table. -/
def jumpTable (f : Fsm) : List (List Nat) :=
  (jumpWrites f).foldl (fun v w => push v w.1 w.2) (List.replicate (f.size * f.letters.size) [])

theorem foldl_flatMap' {α δ γ : Type} (g : α → List δ) (k : γ → δ → γ) (l : List α) : ∀ t : γ,
    l.foldl (fun t e => (g e).foldl k t) t = (l.flatMap g).foldl k t := by
  induction l with
  | nil => intro t; rfl
  | cons a l ih => intro t; rw [List.foldl_cons, List.flatMap_cons, List.foldl_append, ih]

theorem build_vec (f : Fsm) : (build f).vec = jumpTable f := by
  unfold jumpTable jumpWrites
  rw [← foldl_flatMap']
  unfold build
  simp only
  congr 1
  funext v fr
  exact foldl_foldl (fun e : PClass => elems (f.destinations fr e.rep)) (fun v (w : Nat × Nat) => push v w.1 w.2)
    (fun e d => (fr * f.letters.size + (letterTable f.letters).getD e.rep 0, d % 2 ^ 32)) f.letters.set v

theorem jumpTable_len (f : Fsm) : (jumpTable f).length = f.size * f.letters.size := by
  unfold jumpTable; rw [foldl_push_len, List.length_replicate]

/-- What the constructor needs from the automaton. -/
structure Ready (f : Fsm) : Prop where
  wf : f.WF
  sparsed : f.sparsed = true
  all : ∀ c, (f.letters.inv c).isSome = true ↔ c < 264 ∧ c ≠ 257
  small : f.size ≤ 2 ^ 32

theorem Ready.lwf {f : Fsm} (h : Ready f) : f.letters.WF := h.wf.let_wf

theorem Ready.cls {f : Fsm} (h : Ready f) {c : Nat} (hc : IsLetter c) :
    ∃ e ∈ f.letters.set, c ∈ e.members ∧ f.letters.inv c = some e.rep := by
  have := (h.all c).2 hc
  rw [Option.isSome_iff_exists] at this
  obtain ⟨r, hr⟩ := this
  obtain ⟨e, he, rfl, hc⟩ := (h.lwf.inv_iff c r).1 hr
  exact ⟨e, he, hc, hr⟩

theorem Ready.rep_letter {f : Fsm} (h : Ready f) {e : PClass} (he : e ∈ f.letters.set) : IsLetter e.rep :=
  (h.all e.rep).1 (by rw [h.lwf.inv_of_mem he (h.lwf.rep_mem e he)]; rfl)

theorem Ready.dest {f : Fsm} (h : Ready f) {e : PClass} (he : e ∈ f.letters.set) (q : Nat) : f.destinations q e.rep = f.dst q e.rep := by
  have hl := h.rep_letter he
  unfold Fsm.destinations Fsm.translate
  rw [h.sparsed]
  have hne : (e.rep == Epsilon) = false := by
    rw [beq_eq_false_iff_ne]; exact hl.2
  rw [hne]
  simp only [Bool.not_true, Bool.or_self, Bool.false_eq_true, if_false]
  unfold Partition.representative
  rw [h.lwf.inv_of_mem he (h.lwf.rep_mem e he)]; rfl

theorem Ready.letter {f : Fsm} (h : Ready f) {e : PClass} (he : e ∈ f.letters.set) {c : Nat} (hc : c ∈ e.members) :
    (letterTable f.letters)[c]? = some e.idx := by
  refine letterTable_get h.lwf he hc ?_
  exact ((h.all c).1 (by rw [h.lwf.inv_of_mem he hc]; rfl)).1

theorem Ready.jump {f : Fsm} (h : Ready f) {q : Nat} (hq : q < f.size) {e : PClass} (he : e ∈ f.letters.set) :
    ∃ ts, (jumpTable f)[q * f.letters.size + e.idx]? = some ts ∧ ∀ p, p ∈ ts ↔ p ∈ f.dst q e.rep := by
  have hidx := h.lwf.idx_lt e he
  have hlt : q * f.letters.size + e.idx < f.size * f.letters.size := by
    have : (q + 1) * f.letters.size ≤ f.size * f.letters.size := Nat.mul_le_mul_right _ hq
    rw [Nat.succ_mul] at this
    unfold Partition.size at *; omega
  refine ⟨[] ++ ((jumpWrites f).filter fun w => w.1 = q * f.letters.size + e.idx).map Prod.snd, ?_, fun p => ?_⟩
  · unfold jumpTable
    rw [foldl_push, List.getElem?_replicate, if_pos hlt]; rfl
  · rw [List.nil_append, List.mem_map]
    constructor
    · rintro ⟨⟨i, x⟩, hx, rfl⟩
      rw [List.mem_filter, decide_eq_true_iff] at hx
      obtain ⟨hx, hi⟩ := hx
      unfold jumpWrites at hx
      rw [List.mem_flatMap] at hx
      obtain ⟨fr, hfr, hx⟩ := hx
      rw [List.mem_flatMap] at hx
      obtain ⟨e', he', hx⟩ := hx
      rw [List.mem_map] at hx
      obtain ⟨d, hd, hx⟩ := hx
      rw [mem_elems, h.dest he'] at hd
      injection hx with h1 h2
      have hl : (letterTable f.letters).getD e'.rep 0 = e'.idx := by
        rw [List.getD_eq_getElem?_getD, h.letter he' (h.lwf.rep_mem e' he')]; rfl
      simp only at hi
      rw [hl] at h1
      have hidx' := h.lwf.idx_lt e' he'
      have heq : fr * f.letters.size + e'.idx = q * f.letters.size + e.idx := by rw [h1, hi]
      have hpos : 0 < f.letters.size := by unfold Partition.size; omega
      have h3 : e'.idx = e.idx := by
        have := congrArg (· % f.letters.size) heq
        simp only [Nat.mul_add_mod_of_lt (show e'.idx < f.letters.size from hidx'), Nat.mul_add_mod_of_lt (show e.idx < f.letters.size from hidx)] at this
        exact this
      have h4 : fr = q := by
        rw [h3] at heq
        exact Nat.eq_of_mul_eq_mul_right hpos (Nat.add_right_cancel heq)
      have h5 : e' = e := by
        exact List.inj_on_of_nodup_map h.lwf.idx_nodup he' he h3
      subst h4 h5
      have hds := (h.wf.dst_lt hd).2.2
      have hsm := h.small
      rw [← h2, Nat.mod_eq_of_lt (by omega)]
      exact hd
    · intro hp
      have hds := (h.wf.dst_lt hp).2.2
      have hsm := h.small
      refine ⟨(q * f.letters.size + e.idx, p), ?_, rfl⟩
      rw [List.mem_filter]
      refine ⟨?_, by simp⟩
      unfold jumpWrites
      rw [List.mem_flatMap]
      refine ⟨q, List.mem_range.2 hq, ?_⟩
      rw [List.mem_flatMap]
      refine ⟨e, he, ?_⟩
      rw [List.mem_map]
      refine ⟨p, by rw [mem_elems, h.dest he]; exact hp, ?_⟩
      rw [List.getD_eq_getElem?_getD, h.letter he (h.lwf.rep_mem e he), Nat.mod_eq_of_lt (by omega)]; rfl

theorem build_repr {f : Fsm} (h : Ready f) (ht : f.TagsIn (· % 256 = 0)) :
    Repr (build f) f.size (fun q c p => c ≠ 257 ∧ f.Edge q c p) (fun q => q ∈ f.finals) := by
  refine ⟨rfl, h.wf.init_lt, fun q c p hE => (h.wf.dst_lt (Fsm.edge_iff.1 hE.2)).2.2, fun c hc => ?_, fun q hq => ?_⟩
  · obtain ⟨e, he, hm, hinv⟩ := h.cls hc
    refine ⟨e.idx, h.letter he hm, fun q hq => ?_⟩
    obtain ⟨ts, e1, m1⟩ := h.jump hq he
    refine ⟨ts, ?_, fun p => ?_⟩
    · have : (build f).jumps = .vecs (jumpTable f) := by rw [← build_vec]; rfl
      unfold targets
      rw [this]
      exact e1
    · rw [m1, Fsm.edge_iff, h.wf.key_eq_repOr, Partition.repOr, hinv, Option.getD_some]
      exact ⟨fun h => ⟨hc.2, h⟩, And.right⟩
  · unfold build
    simp only
    refine ⟨_, by rw [List.getElem?_map, List.getElem?_range hq]; rfl, ?_⟩
    have h0 : (f.tags q).getD 0 % 256 = 0 := by
      cases hq : f.tags q with
      | none => rfl
      | some t => exact ht q t hq
    unfold Fsm.isFinal
    rw [bne_iff_ne, show (256 : Nat) = 2 ^ 8 from rfl, Nat.or_mod_two_pow, show (2 : Nat) ^ 8 = 256 from rfl, h0]
    by_cases hqf : q ∈ f.finals <;> simp [hqf]

theorem compile_ready {f : Fsm} (h : f.WF) (hs : f.size ≤ 2 ^ 32) : Ready (f.removeEpsilons.sparse false) := by
  have r := Fsm.removeEpsilons_spec h
  obtain ⟨-, h2, -⟩ := Fsm.sparse_letters r.wf false
  refine ⟨r.wf.sparse, rfl, fun c => ?_, ?_⟩
  · rw [h2]; simp
  · change f.removeEpsilons.size ≤ _
    rw [r.size]; exact hs

theorem run_noeps {E : Nat → Nat → Nat → Prop} (hE : ∀ q p, ¬ E q 257 p) {q p : Nat} {w : List Nat} :
    Run (fun q c p => c ≠ 257 ∧ E q c p) q w p ↔ Run E q w p := by
  constructor
  · intro h
    induction h with
    | refl => exact .refl _
    | eps h _ ih => exact absurd rfl h.1
    | step hc h _ ih => exact .step hc h.2 ih
  · intro h
    induction h with
    | refl => exact .refl _
    | eps h _ ih => exact absurd h (hE _ _)
    | step hc h _ ih => exact .step hc ⟨hc, h⟩ ih

end Slow
end Pire
