import Verif.Proofs.CaptureRun
import Verif.Proofs.CaptureContext

/-!
# `SlowCapturingScanner`: the order of the threads

For a surrounded automaton: the threads that began earlier come first.  `L` is the state that waits for the beginning of a match, `N` the one behind a
match, `ini` the initial state of the automaton that is surrounded.
-/

namespace Pire
namespace Capture
open Spec

variable {t : Table} {n : Nat} {J : Nat → Nat → List (Nat × Nat)} {F : Nat → Bool} {E : Nat → Nat → Nat → Prop} {A : Nat → Nat → Nat} {L N ini : Nat}

/-- The action of the end of a greedy repetition. -/
def EndsGreedy (a : Nat) : Prop := a &&& 8 = 0 ∧ a &&& 4 ≠ 0

/-- What is needed of a surrounded automaton. -/
structure Surrounded (n : Nat) (J : Nat → Nat → List (Nat × Nat)) (F : Nat → Bool) (E : Nat → Nat → Nat → Prop) (A : Nat → Nat → Nat) (L N ini : Nat) : Prop where
  loop_lt : L < n
  loop : ∀ c < 264, E L c L
  loop_only : ∀ c p, c ≠ 257 → E L c p → p = L
  loop_eps : ∀ c, c = 257 → ∀ p, E L c p → p = L ∨ p = ini
  loop_ini : ∀ c, c = 257 → E L c ini
  loop_out : ∀ p, A L p = 0
  into : ∀ q c, E q c L → q = L
  ini_ne : ini ≠ L
  last : ∀ c < 264, E N c N
  zero : ∀ c, c = 258 → ∀ p, ¬ E 0 c p
  noSkip : ∀ q, Run E ini [] q → ∀ c, c = 257 → ∀ p, E q c p → ¬ EndsGreedy (A q p)
  matched : ∀ u q, (∀ c ∈ u, c < 256) → Run E ini u q → MatchedAt J F q → q = N
  waits : ¬ MatchedAt J F L

/-! ### Threads that began at `a` -/

/-- The thread has read the text from `a` on. -/
def Since (E : Nat → Nat → Nat → Prop) (A : Nat → Nat → Nat) (ini : Nat) (w : List Nat) (a : Nat) (x : Single) : Prop :=
  ∃ l, Steps E A ini l x.num ∧ letters l = w.drop a ∧ opt x.beg = firstWith 0 (trace a l) ∧ opt x.fin = firstWith 1 (trace a l)

theorem Since.run {w : List Nat} {a : Nat} {x : Single} (h : Since E A ini w a x) : Run E ini (w.drop a) x.num := by
  obtain ⟨l, h1, h2, -⟩ := h
  rw [← h2]; exact h1.run

theorem run_ne (hS : Surrounded n J F E A L N ini) {u : List Nat} {p q : Nat} (h : Run E p u q) (hp : p ≠ L) : q ≠ L := by
  induction h with
  | refl => exact hp
  | eps he _ ih => exact ih fun h => hp (hS.into _ _ (h ▸ he))
  | step _ he _ ih => exact ih fun h => hp (hS.into _ _ (h ▸ he))

theorem Since.ne (hS : Surrounded n J F E A L N ini) {w : List Nat} {a : Nat} {x : Single} (h : Since E A ini w a x) : x.num ≠ L := run_ne hS h.run hS.ini_ne

theorem Since.eps {w : List Nat} {a : Nat} (ha : a ≤ w.length) (hl : w.length < npos) {x : Single} {tr : Nat × Nat} (h : Since E A ini w a x) (he : E x.num 257 tr.1)
    (ho : tr.2 = A x.num tr.1) : Since E A ini w a (advance x w.length tr) := by
  obtain ⟨l, h1, h2, h3, h4⟩ := h
  obtain ⟨a1, a2⟩ := advance_beg x hl tr
  have hlen : a + (letters l).length = w.length := by rw [h2, List.length_drop]; omega
  have e : trace a (l ++ [(257, A x.num tr.1)]) = trace a l ++ [(w.length, A x.num tr.1)] := by
    rw [trace_append, hlen]; simp [trace]
  refine ⟨l ++ [(257, A x.num tr.1)], by rw [advance_num]; exact h1.snoc he, by simp [h2], ?_, ?_⟩
  · rw [a1, e, firstWith_snoc, h3, ho]
  · rw [a2, e, firstWith_snoc, h4, ho]

theorem Since.step {w : List Nat} {a : Nat} (ha : a ≤ w.length) {c : Nat} (hc : c ≠ 257) (hl : w.length + 1 < npos) {x : Single} {tr : Nat × Nat} (h : Since E A ini w a x)
    (he : E x.num c tr.1) (ho : tr.2 = A x.num tr.1) : Since E A ini (w ++ [c]) a (advance x (w.length + 1) tr) := by
  obtain ⟨l, h1, h2, h3, h4⟩ := h
  obtain ⟨a1, a2⟩ := advance_beg x hl tr
  have hlen : a + (letters l).length = w.length := by rw [h2, List.length_drop]; omega
  have e : trace a (l ++ [(c, A x.num tr.1)]) = trace a l ++ [(w.length + 1, A x.num tr.1)] := by
    rw [trace_append, hlen]; simp [trace, hc]
  refine ⟨l ++ [(c, A x.num tr.1)], by rw [advance_num]; exact h1.snoc he, ?_, ?_, ?_⟩
  · rw [letters_append, letters_cons hc, h2, List.drop_append_of_le_length ha]; rfl
  · rw [a1, e, firstWith_snoc, h3, ho]
  · rw [a2, e, firstWith_snoc, h4, ho]

theorem Since.path (hE : Edges n J E A) (h : TRepr t n J F) {w : List Nat} {a : Nat} (ha : a ≤ w.length) {cur s : Single} {c : Nat} (hcur : Since E A ini w a cur)
    (hq : cur.num < n) (hc : IsLetter c) (hl : w.length + 1 < npos) (hp : Path J (w.length + 1) cur c s) : s.num < n ∧ Since E A ini (w ++ [c]) a s := by
  have hlen : (w ++ [c]).length = w.length + 1 := by simp
  induction hp with
  | @one tr htr =>
    have hm := (hE.mem _ hq _ hc.1 tr).1 htr
    exact ⟨by rw [advance_num]; exact h.lt _ hq _ hc.1 _ htr, hcur.step ha hc.2 hl hm.1 hm.2⟩
  | @eps s tr _ htr ih =>
    obtain ⟨hs, i⟩ := ih
    have hm := (hE.mem _ hs _ (by omega) tr).1 htr
    refine ⟨by rw [advance_num]; exact h.lt _ hs _ (by omega) _ htr, ?_⟩
    have := i.eps (by omega) (by omega) hm.1 hm.2
    rwa [hlen] at this

theorem advance_loop (pos : Nat) : advance (Single.mk0 L) pos (L, 0) = Single.mk0 L := by
  simp [advance, Single.mk0, Single.setBegin, Single.setEnd]

theorem advance_start (pos p : Nat) : advance (Single.mk0 L) pos (p, 0) = Single.mk0 p := by
  simp [advance, Single.mk0, Single.setBegin, Single.setEnd]

/-- The threads that begin now. -/
theorem loop_path (hS : Surrounded n J F E A L N ini) (hE : Edges n J E A) (h : TRepr t n J F) {w : List Nat} (hl : w.length < npos) {c : Nat} (hc : c < 264) (hc' : c ≠ 257)
    {s : Single} (hp : Path J w.length (Single.mk0 L) c s) : s.num < n ∧ (s = Single.mk0 L ∨ Since E A ini w w.length s) := by
  induction hp with
  | @one tr htr =>
    obtain ⟨h1, h2⟩ := (hE.mem _ hS.loop_lt _ hc tr).1 htr
    obtain ⟨p, o⟩ := tr
    obtain rfl : p = L := hS.loop_only c p hc' h1
    have h2 : o = A p p := h2
    rw [hS.loop_out] at h2
    rw [h2, advance_loop]
    exact ⟨hS.loop_lt, .inl rfl⟩
  | @eps s tr _ htr ih =>
    obtain ⟨hs, i⟩ := ih
    have hm := (hE.mem _ hs _ (by omega) tr).1 htr
    refine ⟨by rw [advance_num]; exact h.lt _ hs _ (by omega) _ htr, ?_⟩
    rcases i with rfl | i
    · obtain ⟨h1, h2⟩ := hm
      obtain ⟨p, o⟩ := tr
      have h2 : o = A L p := h2
      rw [hS.loop_out] at h2
      rw [h2]
      rcases hS.loop_eps _ rfl p h1 with rfl | rfl
      · rw [advance_loop]; exact .inl rfl
      · rw [advance_start]
        exact .inr ⟨[], .nil _, by simp, by show opt npos = _; rw [opt_npos]; rfl, by show opt npos = _; rw [opt_npos]; rfl⟩
    · exact .inr (i.eps (le_refl _) hl hm.1 hm.2)

/-! ### Nothing of what begins now is behind the waiting state -/

/-- The states that are met when a match begins. -/
def Begins (E : Nat → Nat → Nat → Prop) (L ini q : Nat) : Prop := q = L ∨ Run E ini [] q

theorem begins_edge (hS : Surrounded n J F E A L N ini) {q p : Nat} (h : Begins E L ini q) (he : E q 257 p) : Begins E L ini p ∧ ¬ EndsGreedy (A q p) := by
  rcases h with rfl | h
  · refine ⟨?_, by rw [hS.loop_out]; exact fun h => h.2 rfl⟩
    rcases hS.loop_eps _ rfl p he with rfl | rfl
    · exact .inl rfl
    · exact .inr (.refl _)
  · have h' : Run E ini [] p := by simpa using h.snocEps he
    exact ⟨.inr h', hS.noSkip q h _ rfl p he⟩

theorem insert_greedy (g i : Groups) {a : Nat} (ha : ¬ EndsGreedy a) (hi : i.greedy = []) : (g.insert i a).greedy = g.greedy := by
  unfold Groups.insert
  split
  · rfl
  · next h8 =>
    split
    · show g.greedy ++ i.greedy = _; rw [hi, List.append_nil]
    · next h4 => exact absurd ⟨by simpa using h8, h4⟩ ha

theorem explore_quiet (hS : Surrounded n J F E A L N ini) (hE : Edges n J E A) (h : TRepr t n J F) (pos : Nat) : ∀ (fuel : Nat) (acc r : Groups × (Nat → Bool)) (cur : Single),
    cur.num < n → Begins E L ini cur.num → t.explore fuel acc cur 257 pos = some r → r.1.greedy = acc.1.greedy := by
  intro fuel
  induction fuel with
  | zero => intro acc r cur _ _ hx; cases hx
  | succ fuel ih =>
    intro acc r cur hcur hb hx
    unfold Table.explore at hx
    rw [h.next _ hcur _ (by omega), Option.bind_some] at hx
    have key : ∀ (trs : List (Nat × Nat)), (∀ tr ∈ trs, tr ∈ J cur.num 257) → ∀ acc : Groups × (Nat → Bool), trs.foldlM (fun acc tr =>
          if tr.1 < t.statesCount then
            if acc.2 tr.1 then some acc
            else
              (Table.explore t fuel (⟨[], [], []⟩, Function.update acc.2 tr.1 true) (advance cur pos tr) Epsilon pos).map fun r =>
                (acc.1.insert { r.1 with nothing := r.1.nothing ++ [advance cur pos tr] } tr.2, r.2)
          else none) acc = some r → r.1.greedy = acc.1.greedy := by
      intro trs
      induction trs with
      | nil => intro _ acc hr; injection hr with hr; rw [hr]
      | cons tr trs ihl =>
        intro hm acc hr
        rw [List.foldlM_cons] at hr
        obtain ⟨acc', h1, h2⟩ := Option.bind_eq_some_iff.1 hr
        rw [ihl (fun x hx => hm x (List.mem_cons_of_mem _ hx)) acc' h2]
        have htr := hm tr (List.mem_cons_self ..)
        obtain ⟨e1, e2⟩ := (hE.mem _ hcur _ (by omega) tr).1 htr
        obtain ⟨b1, b2⟩ := begins_edge hS hb e1
        split at h1
        · split at h1
          · injection h1 with h1; rw [h1]
          · rw [Option.map_eq_some_iff] at h1
            obtain ⟨r', h3, h4⟩ := h1
            have := ih _ r' _ (by rw [advance_num]; exact h.lt _ hcur _ (by omega) _ htr) (by rw [advance_num]; exact b1) h3
            rw [← h4]
            exact insert_greedy _ _ (by rw [e2]; exact b2) this
        · cases h1
    exact key _ (fun _ h => h) acc hx

theorem fold_used {α β : Type} {G : α → β → Option α} : ∀ (trs : List β) (acc : α), (∀ tr ∈ trs, G acc tr = some acc) → trs.foldlM G acc = some acc := by
  intro trs
  induction trs with
  | nil => intro acc _; rfl
  | cons tr trs ih =>
    intro acc hu
    rw [List.foldlM_cons, hu tr (List.mem_cons_self ..)]
    exact ih acc fun x hx => hu x (List.mem_cons_of_mem _ hx)

/-- The waiting state is the last of what comes from it. -/
theorem explore_loop (hS : Surrounded n J F E A L N ini) (hE : Edges n J E A) (h : TRepr t n J F) (pos fuel : Nat) {used : Nat → Bool} (hu : used L = false)
    (hf : unused n used < fuel + 1) {c : Nat} (hc : c < 264) (hc' : c ≠ 257) {r : Groups × (Nat → Bool)}
    (hx : t.explore (fuel + 1) (⟨[], [], []⟩, used) (Single.mk0 L) c pos = some r) : ∃ l, r.1.all = l ++ [Single.mk0 L] := by
  unfold Table.explore at hx
  have hL : (Single.mk0 L).num = L := rfl
  rw [hL, h.next _ hS.loop_lt _ hc, Option.bind_some] at hx
  have hall : ∀ tr ∈ J L c, tr = (L, 0) := by
    intro tr htr
    obtain ⟨h1, h2⟩ := (hE.mem _ hS.loop_lt _ hc tr).1 htr
    rw [hS.loop_out] at h2
    exact Prod.ext (hS.loop_only c _ hc' h1) h2
  have hmem : (L, 0) ∈ J L c := (hE.mem _ hS.loop_lt _ hc (L, 0)).2 ⟨hS.loop c hc, (hS.loop_out L).symm⟩
  have hlt : L < t.statesCount := by rw [h.states]; exact hS.loop_lt
  cases hJ : J L c with
  | nil => rw [hJ] at hmem; cases hmem
  | cons tr trs =>
    rw [hJ] at hall hx
    obtain rfl := hall tr (List.mem_cons_self ..)
    rw [List.foldlM_cons] at hx
    obtain ⟨acc', h1, h2⟩ := Option.bind_eq_some_iff.1 hx
    have hu' : (if used L = true then some ((⟨[], [], []⟩, used) : Groups × (Nat → Bool)) else (Table.explore t fuel (⟨[], [], []⟩, Function.update used L true) (advance (Single.mk0 L) pos (L, 0)) Epsilon pos).map fun r =>
                ((⟨[], [], []⟩ : Groups).insert { r.1 with nothing := r.1.nothing ++ [advance (Single.mk0 L) pos (L, 0)] } 0, r.2)) = some acc' := by
      have h1' := h1
      dsimp only at h1'
      rw [if_pos hlt] at h1'
      exact h1'
    rw [if_neg (by rw [hu]; simp), Option.map_eq_some_iff, advance_loop] at hu'
    obtain ⟨r', h3, h4⟩ := hu'
    have hq := explore_quiet hS hE h pos fuel _ r' _ hS.loop_lt (.inl rfl) h3
    have hq : r'.1.greedy = [] := hq
    have hused : acc'.2 L = true := by
      obtain ⟨r'', new, e, hx'⟩ := explore_spec h pos fuel (⟨[], [], []⟩, Function.update used L true) (Single.mk0 L) 257 hS.loop_lt (by omega) (by
        have := unused_lt (n := n) hS.loop_lt hu
        show unused n (Function.update used L true) < fuel
        omega)
      have e' := e.symm.trans h3
      injection e' with e'
      subst e'
      rw [← h4]
      exact (hx'.used L).2 (.inl (by simp))
    rw [fold_used trs acc' (by
      intro tr htr
      rw [hall tr (List.mem_cons_of_mem _ htr)]
      dsimp only
      rw [if_pos hlt, if_pos hused])] at h2
    injection h2 with h2
    rw [← h2, ← h4]
    refine ⟨r'.1.nonGreedy ++ r'.1.nothing, ?_⟩
    simp [Groups.all, Groups.insert, hq]

/-! ### The threads with the places where they began -/

/-- The ages of the threads after the text `w`. -/
structure Aged (n : Nat) (E : Nat → Nat → Nat → Prop) (A : Nat → Nat → Nat) (N ini : Nat) (w : List Nat) (z : List (Single × Nat)) : Prop where
  sorted : z.Pairwise fun x y => x.2 ≤ y.2
  since : ∀ y ∈ z, y.2 ≤ w.length ∧ y.1.num < n ∧ Since E A ini w y.2 y.1
  complete : ∀ a ≤ w.length, ∀ q, Run E ini (w.drop a) q → ∃ y ∈ z, y.2 ≤ a ∧ (y.1.num = q ∨ y.1.num = N)

/-- While the next list is made. -/
structure Going (n : Nat) (J : Nat → Nat → List (Nat × Nat)) (E : Nat → Nat → Nat → Prop) (A : Nat → Nat → Nat) (L N ini : Nat) (w : List Nat) (B : Nat) (s : SState)
    (used : Nat → Bool) (z : List (Single × Nat)) : Prop where
  pos : s.pos = w.length
  states : s.states = z.map Prod.fst
  sorted : z.Pairwise fun x y => x.2 ≤ y.2
  since : ∀ y ∈ z, y.2 ≤ B ∧ y.1.num < n ∧ Since E A ini w y.2 y.1
  used_in : ∀ q, used q = true → ∃ y ∈ z, y.1.num = q ∨ y.1.num = N
  closed : ∀ q, used q = true → q < n ∧ ∀ tr ∈ J q 257, used tr.1 = true
  usedL : used L = false

theorem closed_run (hE : Edges n J E A) {used : Nat → Bool} (hcl : ∀ q, used q = true → q < n ∧ ∀ tr ∈ J q 257, used tr.1 = true) {p q : Nat} {u : List Nat}
    (h : Run E p u q) : u = [] → used p = true → used q = true := by
  induction h with
  | refl => exact fun _ h => h
  | @eps p p' _ _ he _ ih =>
    intro hu hp
    obtain ⟨h1, h2⟩ := hcl p hp
    exact ih hu (h2 (p', A p p') ((hE.mem p h1 257 (by omega) _).2 ⟨he, rfl⟩))
  | step _ _ _ _ => intro hu; cases hu

/-- One list of new threads of the same age is added. -/
theorem going_update (hS : Surrounded n J F E A L N ini) (h : TRepr t n J F) {w : List Nat} (hw : ∀ c ∈ w, c < 256) {B a : Nat} (hB : B ≤ a) {s : SState} {used used' : Nat → Bool}
    {z : List (Single × Nat)} (hg : Going n J E A L N ini w B s used z) {g : Groups} {new : List Single} (hp : g.all.Perm new)
    (hf : ∀ x ∈ new, x.num < n ∧ Since E A ini w a x) (hu : ∀ q, used' q = true ↔ used q = true ∨ q ∈ new.map Single.num)
    (he : ∀ x ∈ new, ∀ tr ∈ J x.num 257, used' tr.1 = true) :
    ∃ s' z', t.update s g = some s' ∧ Going n J E A L N ini w a s' used' z' ∧ ∀ y ∈ z, y ∈ z' := by
  have hmem : ∀ x, x ∈ g.all ↔ x ∈ new := fun x => hp.mem_iff
  obtain ⟨s', pre, e, e1, e2, e3, e4⟩ := pushAll_spec h g.all s fun x hx => (hf x ((hmem x).1 hx)).1
  refine ⟨s', z ++ pre.map (·, a), e, ⟨by rw [e1]; exact hg.pos, ?_, ?_, ?_, ?_, ?_, ?_⟩, fun y hy => List.mem_append_left _ hy⟩
  · rw [e2, hg.states]; simp [Function.comp_def]
  · rw [List.pairwise_append]
    refine ⟨hg.sorted, ?_, ?_⟩
    · rw [List.pairwise_map]
      exact List.pairwise_of_forall fun _ _ => le_refl a
    · intro x hx y hy
      obtain ⟨y', -, rfl⟩ := List.mem_map.1 hy
      exact (hg.since x hx).1.trans hB
  · intro y hy
    rcases List.mem_append.1 hy with hy | hy
    · obtain ⟨h1, h2⟩ := hg.since y hy
      exact ⟨h1.trans hB, h2⟩
    · obtain ⟨x, hx, rfl⟩ := List.mem_map.1 hy
      exact ⟨le_refl _, hf x ((hmem x).1 (e3.subset hx))⟩
  · intro q hq
    rcases (hu q).1 hq with hq | hq
    · obtain ⟨y, hy, h1⟩ := hg.used_in q hq
      exact ⟨y, List.mem_append_left _ hy, h1⟩
    · rcases e4 with ⟨-, a2, -⟩ | ⟨x, hx, -, a2⟩
      · obtain ⟨x, hx, rfl⟩ := List.mem_map.1 hq
        exact ⟨(x, a), List.mem_append_right _ (List.mem_map.2 ⟨x, by rw [a2]; exact (hmem x).2 hx, rfl⟩), .inl rfl⟩
      · obtain ⟨-, hs⟩ := hf x ((hmem x).1 (e3.subset hx))
        exact ⟨(x, a), List.mem_append_right _ (List.mem_map.2 ⟨x, hx, rfl⟩), .inr (hS.matched _ _ (fun c hc => hw c (List.mem_of_mem_drop hc)) hs.run a2)⟩
  · intro q hq
    rcases (hu q).1 hq with hq | hq
    · obtain ⟨h1, h2⟩ := hg.closed q hq
      exact ⟨h1, fun tr htr => (hu _).2 (.inl (h2 tr htr))⟩
    · obtain ⟨x, hx, rfl⟩ := List.mem_map.1 hq
      exact ⟨(hf x hx).1, he x hx⟩
  · cases hx : used' L with
    | false => rfl
    | true =>
      rcases (hu L).1 hx with hq | hq
      · rw [hg.usedL] at hq; cases hq
      · obtain ⟨x, hx, hxL⟩ := List.mem_map.1 hq
        exact absurd hxL ((hf x hx).2.ne hS)

/-- The threads that began already. -/
theorem going_loop (hS : Surrounded n J F E A L N ini) (hE : Edges n J E A) (h : TRepr t n J F) {w : List Nat} {c : Nat} (hw : ∀ x ∈ w ++ [c], x < 256) (hl : w.length + 1 < npos) :
    ∀ (cs : List (Single × Nat)) (B : Nat) (s : SState) (used : Nat → Bool) (z : List (Single × Nat)), Going n J E A L N ini (w ++ [c]) B s used z →
    (cs.Pairwise fun x y => x.2 ≤ y.2) → (∀ x ∈ cs, B ≤ x.2 ∧ x.2 ≤ w.length ∧ x.1.num < n ∧ Since E A ini w x.2 x.1) → B ≤ w.length →
    ∃ r z', t.nextLoop c (cs.map Prod.fst) (s, used) = some r ∧ Going n J E A L N ini (w ++ [c]) w.length r.1 r.2 z' ∧ (∀ y ∈ z, y ∈ z') ∧
      ∀ x ∈ cs, ∀ p, E x.1.num c p → ∀ q, Run E p [] q → ∃ y ∈ z', y.2 ≤ x.2 ∧ (y.1.num = q ∨ y.1.num = N) := by
  have hcw : c < 256 := hw c (by simp)
  have hlet : IsLetter c := ⟨by omega, by omega⟩
  intro cs
  induction cs with
  | nil =>
    intro B s used z hg _ _ hB
    exact ⟨(s, used), z, rfl, ⟨hg.pos, hg.states, hg.sorted, fun y hy => ⟨(hg.since y hy).1.trans hB, (hg.since y hy).2⟩, hg.used_in, hg.closed, hg.usedL⟩, fun _ h => h, by simp⟩
  | cons x cs ih =>
    obtain ⟨cur, a⟩ := x
    intro B s used z hg hsort hcs hB
    rw [List.pairwise_cons] at hsort
    obtain ⟨hBa, haw, hcur, hsince⟩ := hcs (cur, a) (List.mem_cons_self ..)
    have hpos : s.pos = w.length + 1 := by rw [hg.pos]; simp
    obtain ⟨r, new, e, hx⟩ := explore_spec h s.pos (t.statesCount + 1) (⟨[], [], []⟩, used) cur c hcur hlet.1
      (by have := unused_le (n := n) used; rw [h.states]; simp only; omega)
    have hnew : ∀ x ∈ new, x.num < n ∧ Since E A ini (w ++ [c]) a x := by
      intro x hxn
      obtain ⟨-, b, p⟩ := hx.fresh x hxn
      rw [hpos] at p
      exact ⟨b, (hsince.path hE h haw hcur hlet hl p).2⟩
    obtain ⟨s', z1, e', hg', hz1⟩ := going_update (used' := r.2) hS h hw hBa hg (by simpa [Groups.all] using hx.all) hnew hx.used hx.eps
    obtain ⟨r', z', e'', hg'', hz', hdone⟩ := ih a s' r.2 z1 hg' hsort.2 (fun y hy => ⟨hsort.1 y hy, (hcs y (List.mem_cons_of_mem _ hy)).2⟩) haw
    refine ⟨r', z', ?_, hg'', fun y hy => hz' y (hz1 y hy), ?_⟩
    · rw [List.map_cons]
      unfold Table.nextLoop
      simp only
      rw [e, Option.bind_some, e', Option.bind_some, e'']
    · intro y hy p hp q hq
      rcases List.mem_cons.1 hy with rfl | hy
      · have h1 := hx.one (p, A cur.num p) ((hE.mem _ hcur _ hlet.1 _).2 ⟨hp, rfl⟩)
        obtain ⟨y, hy, h2⟩ := hg'.used_in q (closed_run hE hg'.closed hq rfl h1)
        exact ⟨y, hz' y hy, (hg'.since y hy).1, h2⟩
      · exact hdone y hy p hp q hq

theorem nextLoop_append (c : Nat) : ∀ (a b : List Single) (acc : SState × (Nat → Bool)), t.nextLoop c (a ++ b) acc = (t.nextLoop c a acc).bind fun r => t.nextLoop c b r := by
  intro a
  induction a with
  | nil => intro b acc; rfl
  | cons x a ih =>
    intro b acc
    have e : ∀ (l : List Single) (acc : SState × (Nat → Bool)), t.nextLoop c (x :: l) acc =
        (t.explore (t.statesCount + 1) (⟨[], [], []⟩, acc.2) x c acc.1.pos).bind fun r => (t.update acc.1 r.1).bind fun n => t.nextLoop c l (n, r.2) := fun _ _ => rfl
    rw [List.cons_append, e, e, Option.bind_assoc]
    congr 1; funext r
    rw [Option.bind_assoc]
    congr 1; funext n
    rw [ih]

/-- The waiting state: the threads that begin here, and itself. -/
theorem going_last (hS : Surrounded n J F E A L N ini) (hE : Edges n J E A) (h : TRepr t n J F) {w : List Nat} (hw : ∀ x ∈ w, x < 256) (hl : w.length < npos) {s : SState}
    {used : Nat → Bool} {z : List (Single × Nat)} {B : Nat} (hB : B ≤ w.length) (hg : Going n J E A L N ini w B s used z) {c : Nat} (hc : c < 264) (hc' : c ≠ 257) :
    ∃ (r : Groups × (Nat → Bool)) (s' : SState) (z' : List (Single × Nat)), t.explore (t.statesCount + 1) (⟨[], [], []⟩, used) (Single.mk0 L) c w.length = some r ∧ t.update s r.1 = some s' ∧
      (s'.states = z'.map Prod.fst ++ [Single.mk0 L] ∨ s'.states = z'.map Prod.fst ∧ ∃ y ∈ z', y.1.num = N) ∧ s'.pos = w.length ∧
      z'.Pairwise (fun x y => x.2 ≤ y.2) ∧ (∀ y ∈ z', y.2 ≤ w.length ∧ y.1.num < n ∧ Since E A ini w y.2 y.1) ∧ (∀ y ∈ z, y ∈ z') ∧
      ∀ q, Run E ini [] q → ∃ y ∈ z', y.1.num = q ∨ y.1.num = N := by
  obtain ⟨r, new, e, hx⟩ := explore_spec h w.length (t.statesCount + 1) (⟨[], [], []⟩, used) (Single.mk0 L) c hS.loop_lt hc
      (by have := unused_le (n := n) used; rw [h.states]; simp only; omega)
  obtain ⟨l, hl'⟩ := explore_loop hS hE h w.length t.statesCount hg.usedL (by have := unused_le (n := n) used; rw [h.states]; omega) hc hc' e
  have hp : r.1.all.Perm new := by simpa [Groups.all] using hx.all
  have hmem : ∀ x, x ∈ r.1.all ↔ x ∈ new := fun x => hp.mem_iff
  have hnd : (r.1.all.map Single.num).Nodup := (hp.map _).nodup_iff.2 hx.nodup
  have hlz : ∀ x ∈ l, x.num < n ∧ Since E A ini w w.length x := by
    intro x hxl
    have hxn := (hmem x).1 (by rw [hl']; exact List.mem_append_left _ hxl)
    obtain ⟨h1, h2⟩ := loop_path hS hE h hl hc hc' (hx.fresh x hxn).2.2
    refine ⟨h1, h2.resolve_left fun hxL => ?_⟩
    rw [hl', List.map_append, List.nodup_append] at hnd
    exact hnd.2.2 x.num (List.mem_map.2 ⟨x, hxl, rfl⟩) L (by simp [Single.mk0]) (by rw [hxL]; rfl)
  obtain ⟨s', pre, e', e1, e2, e3, e4⟩ := pushAll_spec h r.1.all s fun x hxm => (hx.fresh x ((hmem x).1 hxm)).2.1
  have hclosed : ∀ q, r.2 q = true → q < n ∧ ∀ tr ∈ J q 257, r.2 tr.1 = true := by
    intro q hq
    rcases (hx.used q).1 hq with hq | hq
    · obtain ⟨h1, h2⟩ := hg.closed q hq
      exact ⟨h1, fun tr htr => (hx.used _).2 (.inl (h2 tr htr))⟩
    · obtain ⟨x, hxn, rfl⟩ := List.mem_map.1 hq
      exact ⟨(hx.fresh x hxn).2.1, hx.eps x hxn⟩
  have hrL : r.2 L = true := (hx.used L).2 (.inr (List.mem_map.2 ⟨Single.mk0 L, (hmem _).1 (by rw [hl']; simp), rfl⟩))
  have hrq : ∀ q, Run E ini [] q → r.2 q = true := by
    intro q hq
    refine closed_run hE hclosed hq rfl ?_
    exact (hclosed L hrL).2 (ini, A L ini) ((hE.mem L hS.loop_lt 257 (by omega) _).2 ⟨hS.loop_ini _ rfl, rfl⟩)
  have hsort : ∀ k : List Single, (z ++ k.map (·, w.length)).Pairwise fun x y => x.2 ≤ y.2 := by
    intro k
    rw [List.pairwise_append]
    refine ⟨hg.sorted, ?_, ?_⟩
    · rw [List.pairwise_map]
      exact List.pairwise_of_forall fun _ _ => le_refl _
    · intro x hx y hy
      obtain ⟨y', -, rfl⟩ := List.mem_map.1 hy
      exact (hg.since x hx).1.trans hB
  have hsince : ∀ k : List Single, (∀ x ∈ k, x ∈ l) → ∀ y ∈ z ++ k.map (·, w.length), y.2 ≤ w.length ∧ y.1.num < n ∧ Since E A ini w y.2 y.1 := by
    intro k hk y hy
    rcases List.mem_append.1 hy with hy | hy
    · obtain ⟨h1, h2⟩ := hg.since y hy
      exact ⟨h1.trans hB, h2⟩
    · obtain ⟨x, hxk, rfl⟩ := List.mem_map.1 hy
      exact ⟨le_refl _, hlz x (hk x hxk)⟩
  have hfind : ∀ (k : List Single), (k = l ∨ ∃ x ∈ k, x.num = N) → ∀ q, Run E ini [] q → ∃ y ∈ z ++ k.map (·, w.length), y.1.num = q ∨ y.1.num = N := by
    intro k hk q hq
    rcases hk with rfl | ⟨x, hxk, hxN⟩
    · rcases (hx.used q).1 (hrq q hq) with hq' | hq'
      · obtain ⟨y, hy, h1⟩ := hg.used_in q hq'
        exact ⟨y, List.mem_append_left _ hy, h1⟩
      · obtain ⟨x, hxn, rfl⟩ := List.mem_map.1 hq'
        have hxa := (hmem x).2 hxn
        rw [hl', List.mem_append, List.mem_singleton] at hxa
        rcases hxa with hxl | rfl
        · exact ⟨(x, w.length), List.mem_append_right _ (List.mem_map.2 ⟨x, hxl, rfl⟩), .inl rfl⟩
        · exact absurd rfl (run_ne hS hq hS.ini_ne)
    · exact ⟨(x, w.length), List.mem_append_right _ (List.mem_map.2 ⟨x, hxk, rfl⟩), .inr hxN⟩
  rw [hl'] at e3
  have hN : ∀ x ∈ l, MatchedAt J F x.num → x.num = N := fun x hxl hm =>
    hS.matched _ _ (fun c hc => hw c (List.mem_of_mem_drop hc)) (hlz x hxl).2.run hm
  have hpre : pre = l ++ [Single.mk0 L] ∨ ((∀ x ∈ pre, x ∈ l) ∧ ∃ x ∈ pre, x.num = N) := by
    rcases List.prefix_concat_iff.1 e3 with hpre | hpre
    · exact .inl hpre
    · refine .inr ⟨fun x hx => hpre.subset hx, ?_⟩
      rcases e4 with ⟨-, a2, -⟩ | ⟨x, hxp, -, a2⟩
      · have := hpre.length_le
        rw [a2, hl', List.length_append, List.length_singleton] at this
        omega
      · exact ⟨x, hxp, hN x (hpre.subset hxp) a2⟩
  rcases hpre with rfl | ⟨h1, h2⟩
  · refine ⟨r, s', z ++ l.map (·, w.length), e, e', .inl ?_, by rw [e1, hg.pos], hsort l, hsince l fun _ h => h, fun y hy => List.mem_append_left _ hy, hfind l (.inl rfl)⟩
    rw [e2, hg.states]; simp [Function.comp_def]
  · refine ⟨r, s', z ++ pre.map (·, w.length), e, e', .inr ⟨?_, ?_⟩, by rw [e1, hg.pos], hsort pre, hsince pre h1, fun y hy => List.mem_append_left _ hy, hfind pre (.inr h2)⟩
    · rw [e2, hg.states]; simp [Function.comp_def]
    · obtain ⟨x, hxp, hxN⟩ := h2
      exact ⟨(x, w.length), List.mem_append_right _ (List.mem_map.2 ⟨x, hxp, rfl⟩), hxN⟩

/-- The list of the threads: those that began in the order of the places, then the one that waits. -/
def Ordered (n : Nat) (E : Nat → Nat → Nat → Prop) (A : Nat → Nat → Nat) (L N ini : Nat) (w : List Nat) (s : SState) : Prop :=
  s.pos = w.length ∧ ∃ z, Aged n E A N ini w z ∧ (s.states = z.map Prod.fst ++ [Single.mk0 L] ∨ s.states = z.map Prod.fst ∧ ∃ y ∈ z, y.1.num = N)

theorem going_nil {w : List Nat} {m : Option Single} : Going n J E A L N ini w 0 { states := [], pos := w.length, matched := m } (fun _ => false) [] :=
  ⟨rfl, rfl, List.Pairwise.nil, by simp, by simp, by simp, rfl⟩

theorem ordered_init (hS : Surrounded n J F E A L N ini) (hE : Edges n J E A) (h : TRepr t n J F) (hstart : t.start = L) :
    ∃ s, t.initState = some s ∧ Ordered n E A L N ini [] s := by
  have hn : 0 < n := Nat.lt_of_le_of_lt (Nat.zero_le _) h.start_lt
  obtain ⟨r, s', z', e1, e2, h1, h2, h3, h4, -, h6⟩ := going_last hS hE h (w := []) (by simp) (by unfold npos; simp) (le_refl 0) (going_nil (m := none)) (c := 258) (by omega) (by omega)
  have hJ : J 0 258 = [] := by
    cases hJ : J 0 258 with
    | nil => rfl
    | cons tr trs => exact absurd ((hE.mem 0 hn 258 (by omega) tr).1 (by rw [hJ]; simp)).1 (hS.zero _ rfl _)
  have e3 : t.explore (t.statesCount + 1) r (Single.mk0 0) BeginMark 0 = some r := by
    unfold Table.explore
    have e : t.nextStates (Single.mk0 0).num BeginMark = some [] := by rw [← hJ]; exact h.next 0 hn 258 (by omega)
    rw [e]; rfl
  refine ⟨s', ?_, h2, z', ⟨h3, h4, ?_⟩, h1⟩
  · unfold Table.initState
    rw [hstart]
    have e1' : t.explore (t.statesCount + 1) (⟨[], [], []⟩, fun _ => false) (Single.mk0 L) BeginMark 0 = some r := e1
    rw [e1', Option.bind_some, e3, Option.bind_some]
    exact e2
  · intro a ha q hq
    obtain rfl : a = 0 := by simpa using ha
    obtain ⟨y, hy, h7⟩ := h6 q (by simpa using hq)
    exact ⟨y, hy, (h4 y hy).1, h7⟩

theorem ordered_next (hS : Surrounded n J F E A L N ini) (hE : Edges n J E A) (h : TRepr t n J F) {w : List Nat} {c : Nat} (hw : ∀ x ∈ w ++ [c], x < 256) (hl : w.length + 1 < npos)
    {s : SState} (hs : Ordered n E A L N ini w s) : ∃ s', t.next s c = some s' ∧ Ordered n E A L N ini (w ++ [c]) s' := by
  obtain ⟨hpos, z, hz, hst⟩ := hs
  have hcw : c < 256 := hw c (by simp)
  have hlen : (w ++ [c]).length = w.length + 1 := by simp
  have hpos' : (s.pos + 1) % 2 ^ 64 = (w ++ [c]).length := by rw [hpos, hlen]; unfold npos at hl; omega
  obtain ⟨r, z1, e1, hg, -, hdone⟩ := going_loop hS hE h hw hl z 0 { states := [], pos := (s.pos + 1) % 2 ^ 64, matched := s.matched } (fun _ => false) []
    (by rw [hpos']; exact going_nil) hz.sorted (fun x hx => ⟨Nat.zero_le _, hz.since x hx⟩) (Nat.zero_le _)
  have hold : ∀ (z' : List (Single × Nat)), (∀ y ∈ z1, y ∈ z') → ∀ a ≤ w.length, ∀ q, Run E ini ((w ++ [c]).drop a) q → ∃ y ∈ z', y.2 ≤ a ∧ (y.1.num = q ∨ y.1.num = N) := by
    intro z' hz' a ha q hq
    rw [List.drop_append_of_le_length ha] at hq
    obtain ⟨p, hp, hq1⟩ := Run.split hq
    clear hq
    obtain ⟨p1, p2, hp1, hp2, hp3⟩ : ∃ p1 p2, Run E p [] p1 ∧ E p1 c p2 ∧ Run E p2 [] q := by
      generalize hv : [c] = v at hq1
      clear hp
      induction hq1 with
      | refl => cases hv
      | eps he _ ih =>
        obtain ⟨p1, p2, h1, h2⟩ := ih hv
        exact ⟨p1, p2, .eps he h1, h2⟩
      | step _ he hr _ =>
        injection hv with h1 h2
        subst h1; subst h2
        exact ⟨_, _, .refl _, he, hr⟩
    have hp1' : Run E ini (w.drop a) p1 := by simpa using hp.trans hp1
    obtain ⟨y, hy, hya, h1⟩ := hz.complete a ha p1 hp1'
    rcases h1 with rfl | h1
    · obtain ⟨y', hy', h2, h3⟩ := hdone y hy p2 hp2 q hp3
      exact ⟨y', hz' y' hy', h2.trans hya, h3⟩
    · obtain ⟨y', hy', h2, h3⟩ := hdone y hy N (by rw [h1]; exact hS.last c (by omega)) N (.refl _)
      exact ⟨y', hz' y' hy', h2.trans hya, .inr (h3.elim id id)⟩
  rcases hst with hst | ⟨hst, y0, hy0, hN0⟩
  · obtain ⟨r2, s', z2, f1, f2, h1, h2, h3, h4, h5, h6⟩ := going_last hS hE h (w := w ++ [c]) hw (by rw [hlen]; exact hl) (B := w.length) (by rw [hlen]; omega) hg (c := c) (by omega) (by omega)
    refine ⟨s', ?_, h2, z2, ⟨h3, h4, ?_⟩, h1⟩
    · unfold Table.next
      rw [hst, nextLoop_append, e1, Option.bind_some]
      have e : ∀ acc : SState × (Nat → Bool), t.nextLoop c [Single.mk0 L] acc =
        (t.explore (t.statesCount + 1) (⟨[], [], []⟩, acc.2) (Single.mk0 L) c acc.1.pos).bind fun r => (t.update acc.1 r.1).bind fun n => some (n, r.2) := fun _ => rfl
      rw [e, hg.pos, f1, Option.bind_some, f2]
      rfl
    · intro a ha q hq
      rcases Nat.lt_or_ge w.length a with hlt | hge
      · obtain rfl : a = (w ++ [c]).length := by omega
        rw [List.drop_length] at hq
        obtain ⟨y, hy, h7⟩ := h6 q hq
        exact ⟨y, hy, (h4 y hy).1, h7⟩
      · exact hold z2 h5 a hge q hq
  · refine ⟨r.1, ?_, by rw [hg.pos], z1, ⟨hg.sorted, fun y hy => ?_, ?_⟩, .inr ⟨hg.states, ?_⟩⟩
    · unfold Table.next
      rw [hst, e1]; rfl
    · obtain ⟨h1, h2⟩ := hg.since y hy
      exact ⟨by omega, h2⟩
    · intro a ha q hq
      rcases Nat.lt_or_ge w.length a with hlt | hge
      · obtain ⟨y', hy', h2, h3⟩ := hdone y0 hy0 N (by rw [hN0]; exact hS.last c (by omega)) N (.refl _)
        have := (hz.since y0 hy0).1
        exact ⟨y', hy', by omega, .inr (h3.elim id id)⟩
      · exact hold z1 (fun _ h => h) a hge q hq
    · obtain ⟨y', hy', -, h3⟩ := hdone y0 hy0 N (by rw [hN0]; exact hS.last c (by omega)) N (.refl _)
      exact ⟨y', hy', h3.elim id id⟩

theorem ordered_run (hS : Surrounded n J F E A L N ini) (hE : Edges n J E A) (h : TRepr t n J F) (hstart : t.start = L) (w : List Nat) (hw : ∀ c ∈ w, c < 256) (hl : w.length < npos) :
    ∃ s, t.run w = some s ∧ Ordered n E A L N ini w s := by
  obtain ⟨s0, e0, h0⟩ := ordered_init hS hE h hstart
  have key : ∀ w : List Nat, (∀ c ∈ w, c < 256) → w.length < npos → ∃ s, w.foldlM t.next s0 = some s ∧ Ordered n E A L N ini w s := by
    intro w
    induction w using List.reverseRecOn with
    | nil => intro _ _; exact ⟨s0, rfl, h0⟩
    | append_singleton w c ih =>
      intro hw hl
      rw [List.length_append, List.length_singleton] at hl
      obtain ⟨s, e, hs⟩ := ih (fun x hx => hw x (List.mem_append_left _ hx)) (by omega)
      obtain ⟨s', e', hs'⟩ := ordered_next hS hE h hw hl hs
      refine ⟨s', ?_, hs'⟩
      rw [List.foldlM_append, e]
      simp [e']
  obtain ⟨s, e, hs⟩ := key w hw hl
  exact ⟨s, by unfold Table.run; rw [e0, Option.bind_some, e], hs⟩

/-- The thread that is reported began at the leftmost place. -/
theorem ordered_capture (hS : Surrounded n J F E A L N ini) (h : TRepr t n J F) {w : List Nat} (hw : ∀ c ∈ w, c < 256) (hN : MatchedAt J F N) {s : SState}
    (hs : Ordered n E A L N ini w s) {a : Nat} (ha : a ≤ w.length) (hr : Run E ini (w.drop a) N) :
    ∃ b x i, t.getCapture s = some (b, some x) ∧ x.num = N ∧ i ≤ w.length ∧ Since E A ini w i x ∧ ∀ a ≤ w.length, Run E ini (w.drop a) N → i ≤ a := by
  obtain ⟨-, z, hz, hst⟩ := hs
  have key : ∀ (z rest : List (Single × Nat)) (tl : List Single), (∀ y ∈ z, y.1.num < n) → (∃ y ∈ z, MatchedAt J F y.1.num) →
      ∃ b x pre suf, Table.getCapture.loop t s (z.map Prod.fst ++ tl) = some (b, some x.1) ∧ z = pre ++ x :: suf ∧ MatchedAt J F x.1.num ∧
        ∀ y ∈ pre, ¬ MatchedAt J F y.1.num := by
    intro z rest tl
    induction z with
    | nil => rintro _ ⟨y, hy, -⟩; cases hy
    | cons x z ih =>
      intro hlt hex
      obtain ⟨c, m, e, h1, -⟩ := captured_spec h x.1 (hlt x (List.mem_cons_self ..))
      rw [List.map_cons, List.cons_append]
      unfold Table.getCapture.loop
      rw [e, Option.bind_some]
      cases m with
      | true => exact ⟨c, x, [], z, by simp, rfl, h1.1 rfl, by simp⟩
      | false =>
        have hx : ¬ MatchedAt J F x.1.num := fun hm => by have := h1.2 hm; cases this
        obtain ⟨b, x', pre, suf, e', e2, h3, h4⟩ := ih (fun y hy => hlt y (List.mem_cons_of_mem _ hy)) (by
          obtain ⟨y, hy, hm⟩ := hex
          rcases List.mem_cons.1 hy with rfl | hy
          · exact absurd hm hx
          · exact ⟨y, hy, hm⟩)
        refine ⟨b, x', x :: pre, suf, by simpa using e', by rw [e2]; rfl, h3, fun y hy => ?_⟩
        rcases List.mem_cons.1 hy with rfl | hy
        · exact hx
        · exact h4 y hy
  have hf : ∀ a ≤ w.length, Run E ini (w.drop a) N → ∃ y ∈ z, y.2 ≤ a ∧ y.1.num = N := by
    intro a ha hr
    obtain ⟨y, hy, h1, h2⟩ := hz.complete a ha N hr
    exact ⟨y, hy, h1, h2.elim id id⟩
  obtain ⟨y0, hy0, -, hy0N⟩ := hf a ha hr
  obtain ⟨tl, htl⟩ : ∃ tl, s.states = z.map Prod.fst ++ tl := by
    rcases hst with hst | ⟨hst, -⟩
    · exact ⟨_, hst⟩
    · exact ⟨[], by rw [hst, List.append_nil]⟩
  obtain ⟨b, x, pre, suf, e, e1, h1, h2⟩ := key z [] tl (fun y hy => (hz.since y hy).2.1) ⟨y0, hy0, by rw [hy0N]; exact hN⟩
  have hxz : x ∈ z := by rw [e1]; simp
  obtain ⟨hx1, hx2, hx3⟩ := hz.since x hxz
  refine ⟨b, x.1, x.2, by unfold Table.getCapture; rw [htl, e], hS.matched _ _ (fun c hc => hw c (List.mem_of_mem_drop hc)) hx3.run h1, hx1, hx3, ?_⟩
  intro a ha hr
  obtain ⟨y, hy, h3, h4⟩ := hf a ha hr
  refine le_trans ?_ h3
  have hsort := hz.sorted
  rw [e1] at hy hsort
  rw [List.pairwise_append] at hsort
  rcases List.mem_append.1 hy with hy | hy
  · exact absurd (by rw [h4]; exact hN) (h2 y hy)
  · rcases List.mem_cons.1 hy with rfl | hy
    · exact le_refl _
    · exact (List.pairwise_cons.1 hsort.2.1).1 y hy

end Capture
end Pire
