import Verif.Proofs.Prefix

/-!
# Longest prefix with shortcuts: what may be missed
-/

namespace Pire
open Spec Scn
variable {σ α : Type}

/-- A longer accepted prefix is missed only while the state does not change. -/
def gapPost (sc : Scn σ α) (V : σ → Prop) (st : σ) (acc : Option Nat) (l : List Nat) (ptr : Nat) (r : Res σ (Option Nat)) : Prop :=
  weakPost sc V st acc l ptr r ∧ (r.stop = false → r.st = sc.after st l) ∧
  ∀ k, k ≤ l.length → sc.final (sc.after st (l.take k)) = true →
    (r.acc = acc ∧ ∀ i, i ≤ k → sc.after st (l.take i) = st) ∨
    ∃ j, j ≤ l.length ∧ r.acc = some (ptr + j) ∧ (k ≤ j ∨ ∀ i, j ≤ i → i ≤ k → sc.after st (l.take i) = sc.after st (l.take j))

theorem naive_goes {sc : Scn σ α} {ρ : Type} (pred : Pred σ ρ) (l : List Nat) : ∀ (ptr : Nat) (st : σ) (acc : ρ),
    (naive sc pred l ptr st acc).stop = false → (naive sc pred l ptr st acc).st = sc.after st l := by
  induction l with
  | nil => intro ptr st acc _; rfl
  | cons c l ih =>
    intro ptr st acc h
    rw [after_cons]
    unfold naive at h ⊢
    simp only at h ⊢
    split at h
    · cases h
    · rename_i hs
      rw [if_neg hs]
      exact ih _ _ _ h

theorem longPost_gap {sc : Scn σ α} {V : σ → Prop} {st : σ} {acc : Option Nat} {l : List Nat} {ptr : Nat}
    {r : Res σ (Option Nat)} (h : longPost sc V st acc l ptr r) (hi : sc.final st = true → acc ≠ none)
    (hg : r.stop = false → r.st = sc.after st l) : gapPost sc V st acc l ptr r := by
  refine ⟨h.weak hi, hg, fun k hk hf => ?_⟩
  obtain ⟨-, a2, -, -⟩ := h
  rcases a2 with ⟨j, h1, h2, h3, h4, h5⟩ | ⟨h1, h2⟩
  · refine .inr ⟨j, h2, h5, .inl ?_⟩
    by_contra hlt
    rw [h4 k (by omega) hk] at hf
    cases hf
  · have hk0 : k = 0 := by
      by_contra h0
      rw [h1 k (by omega) hk] at hf
      cases hf
    subst hk0
    refine .inl ⟨h2, fun i hi => ?_⟩
    have : i = 0 := by omega
    subst this
    rfl

theorem gap_comp {m : Masks σ} {sc : Scn σ α} {V : σ → Prop} (hc : Closed sc V) (hd : DeadSound sc V) (hm : ∀ st, V st → MaskSound m sc st)
    {st : σ} {acc : Option Nat} {l l' : List Nat} {ptr : Nat} {r r' : Res σ (Option Nat)} (hi : V st ∧ (sc.final st = true → acc ≠ none)) (hl : Bytes l) (hl' : Bytes l')
    (a : gapPost sc V st acc l ptr r) (hs : r.stop = false) (b : gapPost sc V r.st r.acc l' (ptr + l.length) r') : gapPost sc V st acc (l ++ l') ptr r' := by
  obtain ⟨aw, ae, ag⟩ := a
  obtain ⟨bw, be, bg⟩ := b
  have he := ae hs
  have hst : ∀ j, sc.after r.st (l'.take j) = sc.after st ((l ++ l').take (l.length + j)) := by
    intro j
    rw [he, List.take_length_add_append, after_append]
  refine ⟨(weak_runSpec hc hd hm).comp _ _ _ _ _ _ _ hi hl hl' aw hs bw, fun h => ?_, fun k hk hf => ?_⟩
  · rw [be h, he, after_append]
  · by_cases hkl : k ≤ l.length
    · have hpre : ∀ i, i ≤ l.length → (l ++ l').take i = l.take i := fun i hi => List.take_append_of_le_length hi
      rw [hpre k hkl] at hf
      rcases bw.2.1 with hb | ⟨j', g1, -, g3⟩
      · rcases ag k hkl hf with ⟨e1, e2⟩ | ⟨j, e1, e2, e3⟩
        · exact .inl ⟨hb.trans e1, fun i hi => by rw [hpre i (by omega)]; exact e2 i hi⟩
        · refine .inr ⟨j, by rw [List.length_append]; omega, hb.trans e2, ?_⟩
          rcases e3 with e3 | e3
          · exact .inl e3
          · exact .inr fun i h1 h2 => by rw [hpre i (by omega), hpre j e1]; exact e3 i h1 h2
      · exact .inr ⟨l.length + j', by rw [List.length_append]; omega, by rw [g3]; congr 1; omega, .inl (by omega)⟩
    · obtain ⟨k', rfl⟩ : ∃ k', k = l.length + k' := ⟨k - l.length, by omega⟩
      rw [List.length_append] at hk
      rw [← hst] at hf
      rcases bg k' (by omega) hf with ⟨e1, e2⟩ | ⟨j, e1, e2, e3⟩
      · have hfl : sc.final (sc.after st (l.take l.length)) = true := by
          rw [List.take_length, ← he, ← e2 k' le_rfl]; exact hf
        have htail : ∀ i, l.length ≤ i → i ≤ l.length + k' → sc.after st ((l ++ l').take i) = sc.after st l := by
          intro i h1 h2
          obtain ⟨i', rfl⟩ : ∃ i', i = l.length + i' := ⟨i - l.length, by omega⟩
          rw [← hst, e2 i' (by omega), he]
        have hpre : ∀ i, i ≤ l.length → (l ++ l').take i = l.take i := fun i hi => List.take_append_of_le_length hi
        rcases ag l.length le_rfl hfl with ⟨f1, f2⟩ | ⟨j, f1, f2, f3⟩
        · refine .inl ⟨e1.trans f1, fun i hi => ?_⟩
          by_cases hil : i ≤ l.length
          · rw [hpre i hil]; exact f2 i hil
          · rw [htail i (by omega) hi]
            have := f2 l.length le_rfl
            rwa [List.take_length] at this
        · refine .inr ⟨j, by rw [List.length_append]; omega, e1.trans f2, .inr fun i h1 h2 => ?_⟩
          have hj : sc.after st (l.take j) = sc.after st l := by
            rcases f3 with f3 | f3
            · rw [List.take_of_length_le f3]
            · have := f3 l.length f1 le_rfl
              rw [List.take_length] at this
              exact this.symm
          rw [hpre j f1, hj]
          by_cases hil : i ≤ l.length
          · rw [hpre i hil]
            rcases f3 with f3 | f3
            · rw [List.take_of_length_le (by omega)]
            · rw [f3 i h1 hil, hj]
          · exact htail i (by omega) h2
      · refine .inr ⟨l.length + j, by rw [List.length_append]; omega, by rw [e2]; congr 1; omega, ?_⟩
        rcases e3 with e3 | e3
        · exact .inl (by omega)
        · refine .inr fun i h1 h2 => ?_
          obtain ⟨i', rfl⟩ : ∃ i', i = l.length + i' := ⟨i - l.length, by omega⟩
          rw [← hst, ← hst]
          exact e3 i' (by omega) (by omega)

theorem gap_runSpec {m : Masks σ} {sc : Scn σ α} {V : σ → Prop} (hc : Closed sc V) (hd : DeadSound sc V)
    (hm : ∀ st, V st → MaskSound m sc st) :
    RunSpec m sc (longestPrefixPred sc) (fun st acc => V st ∧ (sc.final st = true → acc ≠ none)) (gapPost sc V) where
  naive st acc l ptr hi hl := longPost_gap (naive_longest hc hd hl ptr hi.1 acc) hi.2 (naive_goes _ _ _ _ _)
  inv st acc l ptr r hi hl h hs := (weak_runSpec hc hd hm).inv _ _ _ _ _ hi hl h.1 hs
  comp st acc l l' ptr r r' hi hl hl' h hs h' := gap_comp hc hd hm hi hl hl' h hs h'
  stop := by
    intro st acc l l' ptr r hi hl hl' h hs
    refine ⟨(weak_runSpec hc hd hm).stop _ _ _ _ _ _ hi hl hl' h.1 hs, fun h' => (by rw [hs] at h'; cases h'), fun k hk hf => ?_⟩
    obtain ⟨-, -, -, a4, a5⟩ := h.1
    have hkl : k ≤ l.length := by
      by_contra hlt
      have hw : ∀ c ∈ l'.take (k - l.length), IsLetter c := fun c hc => hl'.lt c (List.mem_of_mem_take hc)
      have h1 := a4 _ hw
      rw [a5 hs _ hw] at h1
      have : (l ++ l').take k = l ++ l'.take (k - l.length) := by
        rw [List.take_append]
        rw [List.take_of_length_le (by omega)]
      rw [this, ← h1] at hf
      cases hf
    have hpre : ∀ i, i ≤ l.length → (l ++ l').take i = l.take i := fun i hi => List.take_append_of_le_length hi
    rw [hpre k hkl] at hf
    rcases h.2.2 k hkl hf with ⟨e1, e2⟩ | ⟨j, e1, e2, e3⟩
    · exact .inl ⟨e1, fun i hi => by rw [hpre i (by omega)]; exact e2 i hi⟩
    · refine .inr ⟨j, by rw [List.length_append]; omega, e2, ?_⟩
      rcases e3 with e3 | e3
      · exact .inl e3
      · exact .inr fun i h1 h2 => by rw [hpre i (by omega), hpre j e1]; exact e3 i h1 h2
  skip := by
    intro st acc l ptr hi hl h1 h2 h
    have stay : ∀ k, sc.after st (l.take k) = st := fun k => after_stay fun c hc => h c (List.mem_of_mem_take hc)
    exact ⟨(weak_runSpec hc hd hm).skip _ _ _ _ hi hl h1 h2 h, fun _ => (after_stay h).symm, fun k hk hf => .inl ⟨rfl, fun i _ => stay i⟩⟩
  noExit := by
    intro st acc l ptr hi hl h1 h2 h
    have stay : ∀ k, sc.after st (l.take k) = st := fun k => after_stay fun c hc => h c (List.mem_of_mem_take hc)
    refine ⟨(weak_runSpec hc hd hm).noExit _ _ _ _ hi hl h1 h2 h, fun _ => (after_stay h).symm, fun k hk hf => .inr ⟨l.length, le_rfl, ?_, .inl hk⟩⟩
    rw [stay] at hf
    simp [longestPrefixPred, hf]
  sound st _ h := hm st h.1

/-- Between the prefix that is returned and a longer accepted one the state does not change. -/
theorem gapWith_spec {sc : Scn σ α} {V : σ → Prop} (hc : Closed sc V) (hv : V sc.initial)
    {doRun : Pred σ (Option Nat) → Nat → Nat → σ → Option Nat → σ × Option Nat} {text : List Nat} {b e : Nat} (hbe : b + text.length = e)
    (hrun : ∀ st acc, V st → (sc.final st = true → acc ≠ none) → ∃ stop, gapPost sc V st acc text b
      ⟨(doRun (longestPrefixPred sc) b e st acc).1, (doRun (longestPrefixPred sc) b e st acc).2, stop⟩)
    (tb te : Bool) {j : Nat} (hj : longestPrefixWith doRun sc b e tb te = some (b + j)) {k : Nat} (hk : k ≤ text.length)
    (hf : sc.final (sc.after (startState sc BeginMark tb) (text.take k)) = true) {i : Nat} (h1 : j ≤ i) (h2 : i ≤ k) :
    sc.after (startState sc BeginMark tb) (text.take i) = sc.after (startState sc BeginMark tb) (text.take j) := by
  have hv0 : V (startState sc BeginMark tb) := by
    unfold startState
    split
    · exact hc _ _ hv (by decide)
    · exact hv
  unfold longestPrefixWith at hj
  simp only at hj
  rw [show (if tb = true then sc.step sc.initial BeginMark else sc.initial) = startState sc BeginMark tb from rfl] at hj
  generalize startState sc BeginMark tb = s0 at hv0 hj hf ⊢
  obtain ⟨stop, -, -, hg⟩ := hrun s0 (if sc.final s0 = true then some b else none) hv0 (by
    intro h; rw [if_pos h]; simp)
  generalize doRun (longestPrefixPred sc) b e s0 (if sc.final s0 = true then some b else none) = rr at hg hj
  obtain ⟨st, pos⟩ := rr
  simp only at hg hj
  have hpos : pos = some (b + j) ∨ text.length ≤ j := by
    split at hj
    · split at hj
      · right; have := Option.some.inj hj; omega
      · exact .inl hj
    · exact .inl hj
  rcases hpos with hpos | hlen
  · rcases hg k hk hf with ⟨e1, e2⟩ | ⟨j', e1, e2, e3⟩
    · have hs := e2 k le_rfl
      rw [hs] at hf
      rw [if_pos hf, hpos] at e1
      have hj0 : j = 0 := by have := Option.some.inj e1; omega
      subst hj0
      rw [e2 i h2]; rfl
    · rw [hpos] at e2
      have hjj : j = j' := by have := Option.some.inj e2; omega
      subst hjj
      rcases e3 with e3 | e3
      · have : i = j := by omega
        rw [this]
      · exact e3 i h1 h2
  · rw [List.take_of_length_le (by omega), List.take_of_length_le (by omega)]

end Pire
