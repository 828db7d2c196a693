import Verif.Model.Lookup
import Verif.Proofs.DetGeneric
import Mathlib.Data.Finset.Card
import Mathlib.Tactic.Ring

/-!
# The open-addressing table of `Glue` is a map, as long as it is not full
-/

namespace Pire
namespace LTable

variable {N : Nat} {t : LTable} {m : Nat × Nat → Option Nat} {n : Nat}

/-- Slot number `d` on the probe path of key `k`. -/
def slot (N : Nat) (k : Nat × Nat) (d : Nat) : Nat := (hash k % N + d) % N

/-- The table holds the map `m`, with `n` slots in use. -/
structure Rep (N : Nat) (t : LTable) (m : Nat × Nat → Option Nat) (n : Nat) : Prop where
  mem : ∀ k v, m k = some v ↔ ∃ i < N, t.filled i = true ∧ t.map i = (k, v)
  probe : ∀ i < N, t.filled i = true → ∃ d < N - 1, i = slot N (t.map i).1 d ∧
    ∀ d' < d, t.filled (slot N (t.map i).1 d') = true ∧ (t.map (slot N (t.map i).1 d')).1 ≠ (t.map i).1
  card : ((Finset.range N).filter fun i => t.filled i = true).card = n

theorem Rep.empty (N : Nat) : Rep N .empty (fun _ => none) 0 :=
  ⟨by simp [LTable.empty], by simp [LTable.empty], by simp [LTable.empty]⟩

theorem slot_lt (hN : 0 < N) (k : Nat × Nat) (d : Nat) : slot N k d < N := Nat.mod_lt _ hN

theorem slot_inj {k : Nat × Nat} {d d' : Nat} (h : d < N) (h' : d' < N) (he : slot N k d = slot N k d') : d = d' := by
  have hN : 0 < N := by omega
  unfold slot at he
  generalize hx : hash k % N = x at he
  have hxl : x < N := hx ▸ Nat.mod_lt _ hN
  have key : ∀ y < N, (x + y) % N = if x + y < N then x + y else x + y - N := by
    intro y hy
    split
    · exact Nat.mod_eq_of_lt (by assumption)
    · rw [Nat.mod_eq_sub_mod (by omega), Nat.mod_eq_of_lt (by omega)]
  rw [key d h, key d' h'] at he
  split at he <;> split at he <;> omega

theorem slot_succ (k : Nat × Nat) (d : Nat) : (slot N k d + 1) % N = slot N k (d + 1) := by
  unfold slot
  rw [Nat.mod_add_mod, Nat.add_assoc]

/-- A slot where the search stops. -/
def Stops (t : LTable) (k : Nat × Nat) (i : Nat) : Prop := t.filled i = false ∨ (t.map i).1 = k

theorem searchLoop_spec {k : Nat × Nat} (fuel d e : Nat) (hf : fuel + d = N) (hde : d ≤ e) (he : e < N - 1)
    (hs : Stops t k (slot N k e)) (hno : ∀ d' < e, d ≤ d' → ¬ Stops t k (slot N k d')) :
    t.searchLoop N k (slot N k (N - 1)) fuel (slot N k d) = some (slot N k e) := by
  induction fuel generalizing d with
  | zero => omega
  | succ fuel ih =>
    unfold searchLoop
    rw [if_neg (fun h => by have := slot_inj (by omega) (by omega) h; omega)]
    by_cases hd : d = e
    · subst hd
      rw [if_pos]
      rcases hs with hs | hs
      · simp [hs]
      · simp [hs]
    · have := hno d (by omega) le_rfl
      unfold Stops at this
      push Not at this
      rw [if_neg (by simp [this.1, this.2]), slot_succ]
      exact ih (d + 1) (by omega) (by omega) fun d' h1 h2 => hno d' h1 (by omega)

theorem search_eq {k : Nat × Nat} (e : Nat) (he : e < N - 1)
    (hs : Stops t k (slot N k e)) (hno : ∀ d' < e, ¬ Stops t k (slot N k d')) : t.search N k = some (slot N k e) := by
  have h := searchLoop_spec N 0 e (by omega) (by omega) he hs (fun d' h1 _ => hno d' h1)
  unfold search
  have e1 : slot N k (N - 1) = (hash k % N + N - 1) % N := by unfold slot; congr 1; omega
  have e2 : slot N k 0 = hash k % N := by unfold slot; rw [Nat.add_zero, Nat.mod_mod]
  rw [e1, e2] at h
  exact h

/-- On the probe path there is a free slot. -/
theorem exists_free (h : Rep N t m n) (hn : n + 2 ≤ N) (k : Nat × Nat) : ∃ d < N - 1, t.filled (slot N k d) = false := by
  by_contra hc
  push Not at hc
  have hsub : (Finset.range (N - 1)).image (slot N k) ⊆ (Finset.range N).filter fun i => t.filled i = true := by
    intro i hi
    obtain ⟨d, hd, rfl⟩ := Finset.mem_image.1 hi
    rw [Finset.mem_range] at hd
    rw [Finset.mem_filter, Finset.mem_range]
    refine ⟨slot_lt (by omega) _ _, ?_⟩
    have := hc d hd
    cases hf : t.filled (slot N k d) with
    | true => rfl
    | false => exact absurd hf this
  have hcard := Finset.card_le_card hsub
  rw [h.card, Finset.card_image_of_injOn, Finset.card_range] at hcard
  · omega
  · intro a ha b hb hab
    simp only [Finset.coe_range, Set.mem_Iio] at ha hb
    exact slot_inj (by omega) (by omega) hab

theorem search_spec (h : Rep N t m n) (hn : n + 2 ≤ N) (k : Nat × Nat) :
    ∃ e < N - 1, t.search N k = some (slot N k e) ∧ Stops t k (slot N k e) ∧ ∀ d' < e, ¬ Stops t k (slot N k d') := by
  classical
  obtain ⟨d, hd, hfree⟩ := exists_free h hn k
  have hex : ∃ e, Stops t k (slot N k e) := ⟨d, .inl hfree⟩
  have hle : Nat.find hex ≤ d := Nat.find_min' hex (.inl hfree)
  have hmin : ∀ d' < Nat.find hex, ¬ Stops t k (slot N k d') := fun d' hd' => Nat.find_min hex hd'
  exact ⟨Nat.find hex, by omega, search_eq _ (by omega) (Nat.find_spec hex) hmin, Nat.find_spec hex, hmin⟩

theorem found_iff (h : Rep N t m n) {k : Nat × Nat} {e : Nat} (he : e < N - 1)
    (hs : Stops t k (slot N k e)) (hno : ∀ d' < e, ¬ Stops t k (slot N k d')) :
    (if t.filled (slot N k e) then some (t.map (slot N k e)).2 else none) = m k := by
  cases hf : t.filled (slot N k e) with
  | true =>
    rw [if_pos rfl]
    symm
    rw [h.mem]
    refine ⟨_, slot_lt (by omega) _ _, hf, ?_⟩
    rcases hs with hs | hs
    · rw [hf] at hs; cases hs
    · exact Prod.ext hs rfl
  | false =>
    rw [if_neg (by simp)]
    symm
    cases hk : m k with
    | none => rfl
    | some v =>
      obtain ⟨i, hi, hfi, hmi⟩ := (h.mem k v).1 hk
      obtain ⟨d, hd, hid, hall⟩ := h.probe i hi hfi
      rw [hmi] at hid hall
      simp only at hid hall
      rcases Nat.lt_trichotomy d e with hlt | heq | hgt
      · exact absurd (.inr (by rw [← hid, hmi])) (hno d hlt)
      · rw [← heq, ← hid, hfi] at hf; cases hf
      · have := (hall e hgt).1
        rw [hf] at this; cases this

theorem find_spec (h : Rep N t m n) (hn : n + 2 ≤ N) (k : Nat × Nat) : t.find N k = some (m k) := by
  obtain ⟨e, he, h1, h2, h3⟩ := search_spec h hn k
  unfold find
  rw [h1, Option.map_some, found_iff h he h2 h3]

theorem insert_old (h : Rep N t m n) (hn : n + 2 ≤ N) {k : Nat × Nat} {v : Nat} (w : Nat) (hk : m k = some v) :
    t.insert N k w = some (t, v, false) := by
  obtain ⟨e, he, h1, h2, h3⟩ := search_spec h hn k
  have := found_iff h he h2 h3
  unfold insert
  rw [hk] at this
  rw [h1, Option.map_some]
  cases hf : t.filled (slot N k e) with
  | false => rw [hf] at this; cases this
  | true =>
    rw [hf, if_pos rfl] at this
    rw [if_pos rfl, Option.some.inj this]

theorem insert_new (h : Rep N t m n) (hn : n + 2 ≤ N) {k : Nat × Nat} (v : Nat) (hk : m k = none) :
    ∃ t', t.insert N k v = some (t', v, true) ∧ Rep N t' (Function.update m k (some v)) (n + 1) := by
  obtain ⟨e, he, h1, h2, h3⟩ := search_spec h hn k
  have hfound := found_iff h he h2 h3
  rw [hk] at hfound
  cases hf : t.filled (slot N k e) with
  | true => rw [hf] at hfound; cases hfound
  | false =>
    unfold insert
    rw [h1, Option.map_some, hf]
    refine ⟨_, rfl, ?_, ?_, ?_⟩
    · intro k' v'
      simp only
      by_cases hkk : k' = k
      · subst hkk
        rw [Function.update_self]
        constructor
        · intro hv
          cases hv
          exact ⟨slot N k' e, slot_lt (by omega) _ _, by rw [Function.update_self], by rw [Function.update_self]⟩
        · rintro ⟨i, hi, hfi, hmi⟩
          by_cases hie : i = slot N k' e
          · subst hie; rw [Function.update_self] at hmi; cases hmi; rfl
          · rw [Function.update_of_ne hie] at hfi hmi
            have := (h.mem k' v').2 ⟨i, hi, hfi, hmi⟩
            rw [hk] at this; cases this
      · rw [Function.update_of_ne hkk, h.mem]
        constructor
        · rintro ⟨i, hi, hfi, hmi⟩
          have hie : i ≠ slot N k e := by rintro rfl; rw [hf] at hfi; cases hfi
          exact ⟨i, hi, by rw [Function.update_of_ne hie]; exact hfi, by rw [Function.update_of_ne hie]; exact hmi⟩
        · rintro ⟨i, hi, hfi, hmi⟩
          by_cases hie : i = slot N k e
          · subst hie; rw [Function.update_self] at hmi
            exact absurd (congrArg Prod.fst hmi).symm hkk
          · rw [Function.update_of_ne hie] at hfi hmi
            exact ⟨i, hi, hfi, hmi⟩
    · intro i hi hfi
      simp only at hfi ⊢
      by_cases hie : i = slot N k e
      · subst hie
        refine ⟨e, he, ?_, ?_⟩
        · rw [Function.update_self]
        · intro d' hd'
          have hne : slot N k d' ≠ slot N k e := fun hx => by have := slot_inj (by omega) (by omega) hx; omega
          rw [Function.update_self]
          simp only
          rw [Function.update_of_ne hne, Function.update_of_ne hne]
          have := h3 d' hd'
          unfold Stops at this
          push Not at this
          exact ⟨by simpa using this.1, this.2⟩
      · rw [Function.update_of_ne hie] at hfi ⊢
        obtain ⟨d, hd, hid, hall⟩ := h.probe i hi hfi
        refine ⟨d, hd, hid, ?_⟩
        intro d' hd'
        obtain ⟨g1, g2⟩ := hall d' hd'
        have hne : slot N (t.map i).1 d' ≠ slot N k e := by intro hx; rw [hx, hf] at g1; cases g1
        rw [Function.update_of_ne hne, Function.update_of_ne hne]
        exact ⟨g1, g2⟩
    · have : ((Finset.range N).filter fun i => Function.update t.filled (slot N k e) true i = true) =
          Insert.insert (slot N k e) ((Finset.range N).filter fun i => t.filled i = true) := by
        ext i
        simp only [Finset.mem_filter, Finset.mem_range, Finset.mem_insert]
        by_cases hie : i = slot N k e
        · subst hie; simp [slot_lt (show 0 < N by omega)]
        · simp [hie]
      simp only
      rw [this, Finset.card_insert_of_notMem (by simp [hf]), h.card]

/-- The std::map meaning of a sequence of insertions: an insertion of a present key does nothing. -/
theorem insertAll_rep (l : List ((Nat × Nat) × Nat)) {K : List (Nat × Nat)} (hK : ∀ x ∈ l, x.1 ∈ K) (hl : K.dedup.length + 2 ≤ N) :
    ∃ t n, insertAll N l = some t ∧ n + 2 ≤ N ∧ Rep N t (fun k => l.lookup k) n := by
  suffices H : ∀ (l : List ((Nat × Nat) × Nat)) (t : LTable) (m : Nat × Nat → Option Nat) (D : List (Nat × Nat)),
      (∀ x ∈ l, x.1 ∈ K) → D.Nodup → (∀ k ∈ D, k ∈ K) → (∀ k, (m k).isSome = true ↔ k ∈ D) → Rep N t m D.length →
      ∃ t' n, l.foldlM (fun t x => (t.insert N x.1 x.2).map (·.1)) t = some t' ∧ n + 2 ≤ N ∧
        Rep N t' (fun k => (m k).or (l.lookup k)) n by
    obtain ⟨t, n, h1, h2, h3⟩ := H l .empty (fun _ => none) [] hK List.nodup_nil (by simp) (by simp) (Rep.empty N)
    exact ⟨t, n, h1, h2, by simpa using h3⟩
  intro l
  induction l with
  | nil =>
    intro t m D _ hD hDK hm hr
    refine ⟨t, D.length, rfl, ?_, by simpa using hr⟩
    have := (hD.subperm (fun k hk => List.mem_dedup.2 (hDK k hk))).length_le
    omega
  | cons x l ih =>
    obtain ⟨k, v⟩ := x
    intro t m D hlK hD hDK hm hr
    have hsz : D.length + 2 ≤ N := by
      have := (hD.subperm (fun k hk => List.mem_dedup.2 (hDK k hk))).length_le
      omega
    rw [List.foldlM_cons]
    cases hk : m k with
    | some w =>
      rw [insert_old hr hsz v hk]
      obtain ⟨t', n, a1, a2, a3⟩ := ih t m D (fun x hx => hlK x (by simp [hx])) hD hDK hm hr
      refine ⟨t', n, a1, a2, ?_⟩
      convert a3 using 1
      funext k'
      by_cases hkk : k' = k
      · subst hkk; simp [hk]
      · have : (k' == k) = false := by simpa using hkk
        simp [List.lookup_cons, this]
    | none =>
      obtain ⟨t1, b1, b2⟩ := insert_new hr hsz v hk
      rw [b1]
      have hkD : k ∉ D := fun hx => by have := (hm k).2 hx; rw [hk] at this; cases this
      obtain ⟨t', n, a1, a2, a3⟩ := ih t1 _ (k :: D) (fun x hx => hlK x (by simp [hx])) (List.nodup_cons.2 ⟨hkD, hD⟩)
        (by
          intro k' hk'
          rcases List.mem_cons.1 hk' with rfl | hk'
          · exact hlK (k', v) (by simp)
          · exact hDK k' hk') (by
          intro k'
          by_cases hkk : k' = k
          · subst hkk; simp
          · rw [Function.update_of_ne hkk, hm]; simp [hkk]) b2
      refine ⟨t', n, a1, a2, ?_⟩
      convert a3 using 1
      funext k'
      by_cases hkk : k' = k
      · subst hkk; simp [hk]
      · have : (k' == k) = false := by simpa using hkk
        rw [Function.update_of_ne hkk]
        simp [List.lookup_cons, this]

end LTable

/-! ### `Determine` with the table is `Determine` with a map -/

namespace DTask

open LTable

/-- Same local variables. -/
structure Sim (N : Nat) (st : TState) (d : DState (Nat × Nat)) : Prop where
  states : st.states = d.states
  left : st.left = d.left
  trans : st.trans = d.trans
  rep : Rep N st.inv d.inv d.states.length
  cap : d.states.length + d.left + 2 ≤ N

theorem rowStepT_sim {N : Nat} (t : DTask (Nat × Nat)) (s : Nat × Nat) {st : TState} {d : DState (Nat × Nat)} (h : Sim N st d)
    (row : Nat → Nat) (e : PClass) :
    match t.rowStep s (d, row) e with
    | none => t.rowStepT N s (st, row) e = .fail
    | some (d', row') => ∃ st', t.rowStepT N s (st, row) e = .ok (st', row') ∧ Sim N st' d' := by
  unfold rowStep rowStepT
  simp only
  rw [find_spec h.rep (by have := h.cap; omega)]
  cases hi : d.inv (t.next s e.rep) with
  | some i => exact ⟨st, rfl, h⟩
  | none =>
    simp only
    rw [h.left]
    by_cases h0 : d.left = 0
    · rw [if_pos h0, if_pos h0]
    · rw [if_neg h0, if_neg h0]
      have hcap := h.cap
      obtain ⟨tab, h1, h2⟩ := insert_new h.rep (by omega) st.states.length hi
      rw [h1]
      refine ⟨{ st with states := st.states ++ [t.next s e.rep], inv := tab, left := d.left - 1 }, ?_, ?_, rfl, h.trans, ?_, ?_⟩
      · simp only [h.states, h.left]
      · simp only [h.states]
      · rw [h.states] at h2
        simpa using h2
      · simp; omega

theorem rowT_sim {N : Nat} (t : DTask (Nat × Nat)) (s : Nat × Nat) (es : List PClass) {st : TState} {d : DState (Nat × Nat)}
    (h : Sim N st d) (row : Nat → Nat) :
    match es.foldlM (t.rowStep s) (d, row) with
    | none => t.rowT N s es (st, row) = .fail
    | some (d', row') => ∃ st', t.rowT N s es (st, row) = .ok (st', row') ∧ Sim N st' d' := by
  induction es generalizing st d row with
  | nil => exact ⟨st, rfl, h⟩
  | cons e es ih =>
    rw [List.foldlM_cons]
    have hs := rowStepT_sim t s h row e
    cases hr : t.rowStep s (d, row) e with
    | none =>
      rw [hr] at hs
      simp only at hs
      show t.rowT N s (e :: es) (st, row) = .fail
      unfold rowT
      rw [hs]
    | some r =>
      obtain ⟨d', row'⟩ := r
      rw [hr] at hs
      obtain ⟨st', h1, h2⟩ := hs
      have := ih h2 row'
      have e1 : t.rowT N s (e :: es) (st, row) = t.rowT N s es (st', row') := by
        rw [rowT, h1]
      rw [e1]
      exact this

theorem loopT_sim {N : Nat} (t : DTask (Nat × Nat)) (fuel : Nat) {idx : Nat} {st : TState} {d : DState (Nat × Nat)}
    (h : Sim N st d) :
    match t.loop fuel idx d with
    | none => t.loopT N fuel idx st = .fail
    | some d' => ∃ st', t.loopT N fuel idx st = .ok st' ∧ Sim N st' d' := by
  induction fuel generalizing idx st d with
  | zero => exact ⟨st, rfl, h⟩
  | succ fuel ih =>
    unfold loop loopT
    rw [h.states]
    cases hs : d.states[idx]? with
    | none => exact ⟨st, rfl, h⟩
    | some s =>
      simp only
      by_cases hr : t.required s = true
      · rw [if_pos hr, if_pos hr]
        have := rowT_sim t s t.letters.set h (fun _ => 0)
        cases hf : t.letters.set.foldlM (t.rowStep s) (d, fun _ => 0) with
        | none =>
          rw [hf] at this
          simp only at this
          simp only
          rw [this]
        | some r =>
          obtain ⟨d', row'⟩ := r
          rw [hf] at this
          obtain ⟨st', h1, h2⟩ := this
          simp only
          rw [h1]
          refine ih (idx := idx + 1) ⟨h2.states, h2.left, ?_, h2.rep, h2.cap⟩
          simp only
          rw [h2.trans]
      · rw [if_neg hr, if_neg hr]
        exact ih h

/-- With room for all the states, the table never overflows and the run is that with an ideal map. -/
theorem runT_eq {N : Nat} (t : DTask (Nat × Nat)) {max : Nat} (hmax : max + 3 ≤ N) :
    t.runT N max = match t.run max with | none => .fail | some r => .ok r := by
  unfold runT run
  obtain ⟨tab, h1, h2⟩ := insert_new (Rep.empty N) (by omega) (k := t.initial) 0 rfl
  rw [h1]
  simp only
  have h0 : Sim N { states := [t.initial], inv := tab, left := max, trans := [] }
      { states := [t.initial], inv := Function.update (fun _ => none) t.initial (some 0), left := max, trans := [] } := by
    refine ⟨rfl, rfl, rfl, h2, ?_⟩
    simp; omega
  have := loopT_sim t (max + 2) (idx := 0) h0
  cases hl : t.loop (max + 2) 0 { states := [t.initial], inv := Function.update (fun _ => none) t.initial (some 0), left := max, trans := [] } with
  | none =>
    rw [hl] at this
    simp only at this
    rw [this]
    rfl
  | some d =>
    rw [hl] at this
    obtain ⟨st', h3, h4⟩ := this
    rw [h3]
    simp only [Option.map_some]
    rw [h4.states, h4.trans]

end DTask
end Pire
