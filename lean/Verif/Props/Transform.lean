import Verif.Proofs.Determine
import Verif.Proofs.FsmMore
import Verif.Proofs.Dead

/-!
# Properties C12–C17: transformations that keep (or predictably change) the language

`f.Det` (Proofs/Determine.lean) is what the flag `determined` promises.  Hypothesis `f.determined = true → f.Det` says the
flag is not set spuriously; C21 shows the operations establish it.
-/

namespace Pire.Props

open Pire Pire.Spec Pire.Fsm

/-- The example automaton used for non-vacuity below: `Fsm().Append('a')` made optional by a loop `1 -eps-> 0`,
with an additional state 2 nobody can reach. -/
def sample : Fsm := ((Fsm.init.appendChar 97).resize 3).connect 1 0 257

theorem sample_wf : sample.WF := by
  have h1 : (Fsm.init.appendChar 97).WF := WF.init.appendChar (by decide)
  have h2 : ((Fsm.init.appendChar 97).resize 3).WF := h1.resize (by simp [appendChar, clearFinal, setFinal, Fsm.init])
  exact h2.connect (by simp) (by simp) (by decide)

theorem sample_raw : sample.Raw := by
  simp [sample, Raw, Fsm.connect, Fsm.resize, appendChar, clearFinal, setFinal, Fsm.init]

theorem sample_edge (q c p : Nat) : sample.Edge q c p ↔ (q = 0 ∧ c = 97 ∧ p = 1) ∨ (q = 1 ∧ c = 257 ∧ p = 0) := by
  have h1 : (Fsm.init.appendChar 97).WF := WF.init.appendChar (by decide)
  have hsz : (Fsm.init.appendChar 97).size = 2 := by simp [appendChar, clearFinal, setFinal, Fsm.init]
  have hr : (Fsm.init.appendChar 97).Raw := by simp [Raw, appendChar, clearFinal, setFinal, Fsm.init]
  rw [sample, edge_connect, resize_edge h1 (by omega), appendChar_edge WF.init, key_raw (f := Fsm.resize _ _) (by exact hr),
    key_raw init_raw]
  simp only [init_edge, false_or]
  simp only [Fsm.init, Finset.mem_singleton]
  omega

/-! ### C12, MakePrefix -/

/-- `MakePrefix` accepts exactly the prefixes of accepted words. -/
theorem C12_makePrefix {f : Fsm} (h : f.WF) (hc : f.Coh) (w : List Nat) :
    w ∈ f.makePrefix.Lang ↔ ∃ v, w ++ v ∈ f.Lang := by
  rw [lang_makePrefix h hc]; rfl

example : sample.WF ∧ sample.Coh := ⟨sample_wf, sample_raw.coh⟩

/-! ### C13 -/

/-- `DeadStates` is exact. -/
theorem C13_deadStates {f : Fsm} (h : f.WF) (hc : f.Coh) (q : Nat) :
    q ∈ f.deadStates ↔ q < f.size ∧
      ((¬ ∃ w, Run f.Edge f.initial w q) ∨ ¬ ∃ w, ∃ p ∈ f.finals, Run f.Edge q w p) := mem_deadStates h hc q

theorem C13_removeDeadEnds {f : Fsm} (h : f.WF) (hc : f.Coh) : f.removeDeadEnds.Lang = f.Lang :=
  lang_removeDeadEnds h hc

/-- After `RemoveDeadEnds` no transition enters or leaves a dead state, and every other transition is still there. -/
theorem C13_removeDeadEnds_transitions {f : Fsm} (q c p : Nat) :
    f.removeDeadEnds.Edge q c p ↔ f.Edge q c p ∧ q ∉ f.deadStates ∧ p ∉ f.deadStates := removeDeadEnds_edge f q c p

/-- non-vacuity: state 2 of the sample is dead, states 0 and 1 are not. -/
example : sample.deadStates = {2} := by
  have hF : sample.finals = {1} := by
    simp [sample, Fsm.connect, Fsm.resize, appendChar, clearFinal, setFinal, Fsm.init]
  have hi : sample.initial = 0 := by
    simp [sample, Fsm.connect, Fsm.resize, appendChar, clearFinal, setFinal, Fsm.init]
  have e01 : sample.Edge 0 97 1 := (sample_edge _ _ _).2 (.inl ⟨rfl, rfl, rfl⟩)
  ext q
  rw [C13_deadStates sample_wf sample_raw.coh, Finset.mem_singleton, hF, hi]
  constructor
  · rintro ⟨hq, hd⟩
    have : q = 0 ∨ q = 1 ∨ q = 2 := by
      have : q < 3 := hq
      omega
    rcases this with rfl | rfl | rfl
    · rcases hd with hd | hd
      · exact absurd ⟨[], .refl _⟩ hd
      · exact absurd ⟨[97], 1, by simp, .step (by decide) e01 (.refl _)⟩ hd
    · rcases hd with hd | hd
      · exact absurd ⟨[97], .step (by decide) e01 (.refl _)⟩ hd
      · exact absurd ⟨[], 1, by simp, .refl _⟩ hd
    · rfl
  · rintro rfl
    refine ⟨by decide, .inl ?_⟩
    rintro ⟨w, hr⟩
    have : (2 : Nat) < 2 := hr.closed (S := (· < 2)) (fun a c b ha e => by
      rcases (sample_edge _ _ _).1 e with e | e <;> omega) (by omega)
    omega

/-! ### C14 -/

/-- `RemoveEpsilons` keeps the language ... -/
theorem C14_removeEpsilons_language {f : Fsm} (h : f.WF) : f.removeEpsilons.Lang = f.Lang := lang_removeEpsilons h

/-- ... of every state, not only of the initial one ... -/
theorem C14_removeEpsilons_every_state {f : Fsm} (h : f.WF) (q : Nat) :
    f.removeEpsilons.LangFrom q = f.LangFrom q := (removeEpsilons_spec h).langFrom q

/-- ... and leaves no epsilon transition. -/
theorem C14_removeEpsilons_no_epsilon {f : Fsm} (h : f.WF) (q p : Nat) : ¬ f.removeEpsilons.Edge q Epsilon p :=
  fun e => (((removeEpsilons_spec h).edge _ _ _).1 e).1 rfl

/-- non-vacuity: the sample has an epsilon transition. -/
example : sample.WF ∧ sample.Edge 1 Epsilon 0 := ⟨sample_wf, (sample_edge _ _ _).2 (.inr ⟨rfl, rfl, rfl⟩)⟩

/-! ### C15 -/

/-- After `Sparse()` every letter (epsilon excepted) is in a class. -/
theorem C15_every_letter_classified {f : Fsm} (h : f.WF) (c : Nat) :
    f.sparse.letters.contains c = true ↔ IsLetter c := by
  rw [Partition.contains, (sparse_letters h false).2.1]
  unfold IsLetter
  constructor
  · rintro ⟨a, b⟩; exact ⟨a, fun h => by cases b h⟩
  · rintro ⟨a, b⟩; exact ⟨a, fun h => absurd h b⟩

/-- Two letters get the same representative iff every state has the same targets for both. -/
theorem C15_same_representative_iff {f : Fsm} (h : f.WF) {a b : Nat} (ha : IsLetter a) (hb : IsLetter b) :
    f.sparse.letters.representative a = f.sparse.letters.representative b ↔ ∀ q, f.tr q a = f.tr q b := by
  obtain ⟨h1, h2, h3, h4⟩ := sparse_letters h false
  obtain ⟨r, hr⟩ := Option.isSome_iff_exists.1 ((h2 a).2 ⟨ha.1, fun h => absurd h ha.2⟩)
  obtain ⟨s, hs⟩ := Option.isSome_iff_exists.1 ((h2 b).2 ⟨hb.1, fun h => absurd h hb.2⟩)
  rw [Partition.representative, Partition.representative, hr, hs, Option.getD_some, Option.getD_some]
  constructor
  · rintro rfl q
    rw [← h3 a r hr q, ← h3 b r hs q]
  · intro hab
    obtain ⟨e, he, rfl, -⟩ := (h1.inv_iff _ _).1 hr
    obtain ⟨e', he', rfl, -⟩ := (h1.inv_iff _ _).1 hs
    apply h4 e he e' he'
    intro q
    rw [h3 a _ hr q, h3 b _ hs q, hab q]

/-- Class indices: `Index` never throws on a letter, lies in `0 .. Size()-1`, and is the same for two letters iff
they have the same representative. -/
theorem C15_index {f : Fsm} (h : f.WF) {a b : Nat} (ha : IsLetter a) (hb : IsLetter b) :
    ∃ i j, f.sparse.letters.index a = some i ∧ f.sparse.letters.index b = some j ∧
      i < f.sparse.letters.size ∧ j < f.sparse.letters.size ∧
      (i = j ↔ f.sparse.letters.representative a = f.sparse.letters.representative b) := by
  obtain ⟨h1, h2, h3, h4⟩ := sparse_letters h false
  obtain ⟨r, hr⟩ := Option.isSome_iff_exists.1 ((h2 a).2 ⟨ha.1, fun h => absurd h ha.2⟩)
  obtain ⟨s, hs⟩ := Option.isSome_iff_exists.1 ((h2 b).2 ⟨hb.1, fun h => absurd h hb.2⟩)
  obtain ⟨e, he, rfl, hm⟩ := (h1.inv_iff _ _).1 hr
  obtain ⟨e', he', rfl, hm'⟩ := (h1.inv_iff _ _).1 hs
  refine ⟨_, _, h1.index_eq he hm, h1.index_eq he' hm', h1.idx_lt e he, h1.idx_lt e' he', ?_⟩
  rw [Partition.representative, Partition.representative, hr, hs, Option.getD_some, Option.getD_some]
  constructor
  · intro hij
    rw [List.inj_on_of_nodup_map h1.idx_nodup he he' hij]
  · intro hrr
    rw [h1.class_unique he he' hrr]

/-- Every index below `Size()` belongs to some class. -/
theorem C15_index_onto {f : Fsm} (h : f.WF) {i : Nat} (hi : i < f.sparse.letters.size) :
    ∃ a, IsLetter a ∧ f.sparse.letters.index a = some i := by
  obtain ⟨h1, h2, h3, h4⟩ := sparse_letters h false
  have hsub : (f.sparse.letters.set.map PClass.idx).toFinset ⊆ Finset.range f.sparse.letters.size := by
    intro x hx
    rw [List.mem_toFinset, List.mem_map] at hx
    obtain ⟨e, he, rfl⟩ := hx
    exact Finset.mem_range.2 (h1.idx_lt e he)
  have hcard : (f.sparse.letters.set.map PClass.idx).toFinset.card = f.sparse.letters.size := by
    rw [List.toFinset_card_of_nodup h1.idx_nodup, List.length_map]; rfl
  have heq := Finset.eq_of_subset_of_card_le hsub (by rw [hcard, Finset.card_range])
  have : i ∈ (f.sparse.letters.set.map PClass.idx).toFinset := by rw [heq]; exact Finset.mem_range.2 hi
  rw [List.mem_toFinset, List.mem_map] at this
  obtain ⟨e, he, rfl⟩ := this
  have hinv := h1.inv_of_mem he (h1.rep_mem e he)
  have := (h2 e.rep).1 (by rw [hinv]; rfl)
  exact ⟨e.rep, ⟨this.1, fun h => by cases this.2 h⟩, h1.index_eq he (h1.rep_mem e he)⟩

/-- `Sparse` keeps every transition of an automaton with raw letters. -/
theorem C15_sparse_transitions {f : Fsm} (h : f.WF) (hraw : f.Raw) (q c p : Nat) :
    f.sparse.Edge q c p ↔ f.Edge q c p := by
  rw [sparse_edge h, edge_iff, key_raw hraw]

theorem C15_sparse_language {f : Fsm} (h : f.WF) (hraw : f.Raw) : f.sparse.Lang = f.Lang := by
  have : f.sparse.Edge = f.Edge := by funext q c p; exact propext (C15_sparse_transitions h hraw q c p)
  rw [Lang, Lang, LangFrom, LangFrom, this]; rfl

/-- `Unsparse` keeps every transition, and stores it explicitly under the letter itself. -/
theorem C15_unsparse_transitions {f : Fsm} (h : f.WF) (q c p : Nat) :
    (f.unsparse.Edge q c p ↔ f.Edge q c p) ∧ (p ∈ f.unsparse.dst q c ↔ f.Edge q c p) :=
  ⟨by rw [unsparse_edge h], by rw [unsparse_dst h]; rfl⟩

theorem C15_unsparse_language {f : Fsm} (h : f.WF) : f.unsparse.Lang = f.Lang := by
  rw [Lang, Lang, LangFrom, LangFrom, unsparse_edge h]; rfl

/-- `Unsparse` followed by `Sparse` keeps the language of any automaton, packed or not. -/
theorem C15_repack_language {f : Fsm} (h : f.WF) : f.unsparse.sparse.Lang = f.Lang := by
  have : f.unsparse.sparse.Edge = f.Edge := by
    funext q c p
    rw [eq_iff_iff, sparse_edge h.unsparse, unsparse_dst h]; rfl
  rw [Lang, Lang, LangFrom, LangFrom, this]; rfl

/-- non-vacuity: in the sample 'a' and 'b' are distinguished, 'b' and 'c' are not. -/
example : sample.sparse.letters.representative 97 ≠ sample.sparse.letters.representative 98 ∧
    sample.sparse.letters.representative 98 = sample.sparse.letters.representative 99 := by
  have hE : ∀ q c p, p ∈ sample.dst q c ↔ sample.Edge q c p := by
    intro q c p; rw [edge_iff, key_raw sample_raw]
  have htr : ∀ q, sample.tr q 98 = sample.tr q 99 := by
    intro q
    simp [sample, Fsm.connect, Fsm.resize, appendChar, clearFinal, setFinal, Fsm.init, connectFinal, connectAll, elems,
      clearHints]
  refine ⟨fun h => ?_, (C15_same_representative_iff sample_wf (by decide) (by decide)).2 htr⟩
  have h1 := (C15_same_representative_iff sample_wf (by decide) (by decide)).1 h 0
  have h2 : (1 : Nat) ∈ sample.dst 0 97 := (hE _ _ _).2 ((sample_edge _ _ _).2 (.inl ⟨rfl, rfl, rfl⟩))
  rw [dst, h1, ← dst, hE, sample_edge] at h2
  omega

/-! ### C16 -/

/-- A successful `Determine` yields a deterministic complete automaton for the same language. -/
theorem C16_determine_true {f : Fsm} (h : f.WF) (hd : f.determined = true → f.Det) (maxSize : Nat)
    (ok : (f.determine maxSize).2 = true) :
    (f.determine maxSize).1.Lang = f.Lang ∧
    (∀ q < (f.determine maxSize).1.size, ∀ c, IsLetter c → ∃! p, (f.determine maxSize).1.Edge q c p) ∧
    (∀ q p, ¬ (f.determine maxSize).1.Edge q Epsilon p) := by
  have key : (f.determine maxSize).1.Det ∧ (f.determine maxSize).1.Lang = f.Lang := by
    cases hf : f.determined with
    | true =>
      have : f.determine maxSize = (f, true) := by simp [determine, hf]
      rw [this]; exact ⟨hd hf, rfl⟩
    | false =>
      have := (determine_spec h hf maxSize).1 ok
      exact ⟨this.1, this.2.1⟩
  refine ⟨key.2, ?_, fun q p => key.1.no_eps⟩
  intro q hq c hc
  obtain ⟨p, hp⟩ := key.1.exists_edge hq hc
  exact ⟨p, hp, fun p' hp' => key.1.edge_unique hp' hp⟩

/-- The size bound and reachability (for an automaton not marked as determined before: otherwise nothing is done). -/
theorem C16_determine_size {f : Fsm} (h : f.WF) (hnd : f.determined = false) {maxSize : Nat} (hm : maxSize ≠ 0)
    (ok : (f.determine maxSize).2 = true) :
    (f.determine maxSize).1.size ≤ maxSize + 1 ∧
    ∀ q < (f.determine maxSize).1.size, ∃ w, Run (f.determine maxSize).1.Edge (f.determine maxSize).1.initial w q := by
  have := (determine_spec h hnd maxSize).1 ok
  rw [if_pos hm] at this
  exact ⟨this.2.2.1, this.2.2.2.2.2.2⟩

/-- A failed `Determine` leaves the language unchanged. -/
theorem C16_determine_false {f : Fsm} (h : f.WF) (maxSize : Nat) (ok : (f.determine maxSize).2 = false) :
    (f.determine maxSize).1.Lang = f.Lang := by
  cases hf : f.determined with
  | true => simp [determine, hf] at ok
  | false => rw [(determine_spec h hf maxSize).2 ok]; exact lang_removeEpsilons h

/-- `Determine` fails only if more than `maxSize + 1` sets of states are reachable by the (cut-off) subset
construction; in particular it succeeds when `maxSize` is at least `2 ^ size`. -/
theorem C16_determine_succeeds {f : Fsm} (h : f.WF) {maxSize : Nat} (hm : 2 ^ f.size ≤ maxSize) :
    (f.determine maxSize).2 = true := by
  have hpos : maxSize ≠ 0 := by have := Nat.two_pow_pos f.size; omega
  unfold determine
  cases hf : f.determined with
  | true => simp
  | false =>
    simp only [Bool.false_eq_true, if_false, if_pos hpos]
    have hs := removeEpsilons_spec h
    obtain ⟨-, r2⟩ := DTask.run_spec (t := f.removeEpsilons.determineTask) hs.wf.let_wf maxSize
    cases hr : f.removeEpsilons.determineTask.run maxSize with
    | some sc => rfl
    | none =>
      exfalso
      obtain ⟨l, hnd, hre, hlen⟩ := r2.1 hr
      have hsub : l.toFinset ⊆ (Finset.range f.size).powerset := by
        intro s hs'
        rw [List.mem_toFinset] at hs'
        have := hre s hs'
        rw [Finset.mem_powerset]
        clear hs'
        induction this with
        | init =>
          intro x hx
          simp only [determineTask, Finset.mem_singleton] at hx
          subst hx
          rw [hs.initial]
          exact Finset.mem_range.2 h.init_lt
        | step _ _ he ih =>
          intro x hx
          obtain ⟨q, hq, hx⟩ := (hs.next_mem he x).1 hx
          have := (hs.wf.dst_lt hx).2.2
          rw [hs.size] at this
          exact Finset.mem_range.2 this
      have := Finset.card_le_card hsub
      rw [Finset.card_powerset, Finset.card_range, List.toFinset_card_of_nodup hnd, hlen] at this
      omega

/-- non-vacuity: the sample is determined successfully with the limit 8. -/
example : sample.determined = false ∧ (sample.determine 8).2 = true :=
  ⟨by simp [sample, Fsm.connect, Fsm.resize, appendChar, clearFinal, setFinal, Fsm.init],
   C16_determine_succeeds sample_wf (by simp [sample])⟩

/-! ### C17 -/

/-- The generic determiner, success: the listed states are exactly the ones reachable through required states, the
initial one first, none twice, at most `maxSize + 1` of them; the reported connections are exactly `task.Next` on the
required states and class representatives. (`DTask.Reach` is the inductive definition of reachability.) -/
theorem C17_generic_success {S : Type} [DecidableEq S] {t : DTask S} (hl : t.letters.WF) {maxSize : Nat} {states : List S}
    {conns : List (Nat × Nat × Nat)} (hr : t.run maxSize = some (states, conns)) :
    states[0]? = some t.initial ∧ states.Nodup ∧ (∀ s, s ∈ states ↔ t.Reach s) ∧ states.length ≤ maxSize + 1 ∧
    (∀ i j c, (i, j, c) ∈ conns ↔ ∃ s, states[i]? = some s ∧ t.required s = true ∧
      (∃ e ∈ t.letters.set, e.rep = c) ∧ states[j]? = some (t.next s c)) := by
  obtain ⟨a, b, c, d, e⟩ := (DTask.run_spec hl maxSize).1 states conns hr
  exact ⟨a, b, c, d, e⟩

/-- The generic determiner, failure: it gives up iff there are more than `maxSize + 1` reachable states. -/
theorem C17_generic_failure {S : Type} [DecidableEq S] {t : DTask S} (hl : t.letters.WF) (maxSize : Nat) :
    t.run maxSize = none ↔ ∃ l : List S, l.Nodup ∧ (∀ s ∈ l, t.Reach s) ∧ l.length = maxSize + 2 :=
  (DTask.run_spec hl maxSize).2

/-- A task over the residues mod 3 with two letters, for non-vacuity: three states, so limit 2 suffices and 1 does not. -/
def mod3 : DTask (Fin 3) where
  letters := (Partition.empty.append (fun _ _ => false) 5).append (fun _ _ => false) 7
  initial := 0
  next := fun s c => if c = 5 then s + 1 else s
  required := fun _ => true

example : mod3.run 2 = some ([0, 1, 2], [(0, 1, 5), (0, 0, 7), (1, 2, 5), (1, 1, 7), (2, 0, 5), (2, 2, 7)]) ∧
    mod3.run 1 = none := by decide

end Pire.Props
