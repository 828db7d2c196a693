import Verif.Proofs.RunMulti

/-!
# Prefix searches
-/

namespace Pire
open Spec
namespace Scn
variable {σ α ρ : Type}

theorem after_append (sc : Scn σ α) (st : σ) (u v : List Nat) : sc.after st (u ++ v) = sc.after (sc.after st u) v :=
  List.foldl_append

@[simp] theorem after_nil (sc : Scn σ α) (st : σ) : sc.after st [] = st := rfl
@[simp] theorem after_cons (sc : Scn σ α) (st : σ) (c : Nat) (w : List Nat) : sc.after st (c :: w) = sc.after (sc.step st c) w := rfl

theorem after_stay {sc : Scn σ α} {st : σ} {l : List Nat} (h : ∀ c ∈ l, sc.step st c = st) : sc.after st l = st := by
  induction l with
  | nil => rfl
  | cons c l ih =>
    rw [after_cons, h c (by simp)]
    exact ih fun x hx => h x (List.mem_cons_of_mem _ hx)

theorem Closed.after {sc : Scn σ α} {V : σ → Prop} (h : Closed sc V) {st : σ} (hv : V st) {w : List Nat}
    (hw : ∀ c ∈ w, IsLetter c) : V (sc.after st w) := by
  induction w generalizing st with
  | nil => exact hv
  | cons c w ih => exact ih (h _ _ hv (hw c (by simp))) fun x hx => hw x (List.mem_cons_of_mem _ hx)

theorem Bytes.lt {l : List Nat} (h : Bytes l) : ∀ c ∈ l, IsLetter c := fun c hc => by have := h c hc; exact ⟨by omega, by omega⟩

theorem take_append_ge {l l' : List Nat} {k : Nat} (h : l.length ≤ k) :
    (l ++ l').take k = l ++ l'.take (k - l.length) := by
  rw [List.take_append, List.take_of_length_le h]

theorem take_append_le {l l' : List Nat} {k : Nat} (h : k ≤ l.length) : (l ++ l').take k = l.take k := by
  rw [List.take_append_of_le_length h]

/-! ### Plain runs -/

def plainPost (sc : Scn σ α) (st : σ) (_ : Unit) (l : List Nat) (_ : Nat) (r : Res σ Unit) : Prop :=
  r.st = sc.after st l ∧ r.stop = false

theorem plain_runSpec {m : Masks σ} {sc : Scn σ α} {V : σ → Prop} (hc : Closed sc V) (hm : ∀ st, V st → MaskSound m sc st) :
    RunSpec m sc runPred (fun st _ => V st) (plainPost sc) where
  naive := by
    intro st acc l ptr _ _
    rw [naive_runPred]; exact ⟨rfl, rfl⟩
  inv := by
    intro st acc l ptr r hi hl hp _
    rw [hp.1]; exact hc.after hi hl.lt
  comp := by
    intro st acc l l' ptr r r' _ _ _ hp _ hp'
    exact ⟨by rw [hp'.1, hp.1, after_append], hp'.2⟩
  stop := by
    intro st acc l l' ptr r _ _ _ hp hs
    rw [hp.2] at hs; cases hs
  skip := fun st acc l ptr _ _ _ _ h => ⟨(after_stay h).symm, rfl⟩
  noExit := fun st acc l ptr _ _ _ _ h => ⟨(after_stay h).symm, rfl⟩
  sound := fun st _ h => hm st h

theorem runMulti_eq {m : Masks σ} {sc : Scn σ α} {V : σ → Prop} (hc : Closed sc V) (hm : ∀ st, V st → MaskSound m sc st)
    {isa : Isa} (hisa : Isa.Sound isa) (mem : Mem) {b e : Nat} (hbe : b ≤ e) {st : σ} (hv : V st) :
    sc.runMulti isa m mem b e st = sc.after st (bytesAt mem b (e - b)) := by
  obtain ⟨_, h, _⟩ := doRun_spec (plain_runSpec hc hm) hisa (mem := mem) hbe st () hv
  exact h

/-! ### Shortest prefix -/

def shortPost (sc : Scn σ α) (V : σ → Prop) (st : σ) (_ : Option Nat) (l : List Nat) (ptr : Nat) (r : Res σ (Option Nat)) : Prop :=
  V r.st ∧
  ((∃ k, 1 ≤ k ∧ k ≤ l.length ∧ sc.final (sc.after st (l.take k)) = true ∧
      (∀ j, 1 ≤ j → j < k → sc.final (sc.after st (l.take j)) = false) ∧ r.acc = some (ptr + k) ∧ r.stop = true) ∨
   ((∀ k, 1 ≤ k → k ≤ l.length → sc.final (sc.after st (l.take k)) = false) ∧ r.acc = none ∧
      (∀ w : List Nat, (∀ c ∈ w, IsLetter c) → sc.final (sc.after r.st w) = sc.final (sc.after st (l ++ w))) ∧
      (r.stop = true → ∀ w : List Nat, (∀ c ∈ w, IsLetter c) → sc.final (sc.after r.st w) = false)))

theorem naive_shortest {sc : Scn σ α} {V : σ → Prop} (hc : Closed sc V) (hd : DeadSound sc V) {l : List Nat} (hl : Bytes l)
    (ptr : Nat) {st : σ} (hv : V st) : shortPost sc V st none l ptr (naive sc (shortestPrefixPred sc) l ptr st none) := by
  induction l generalizing ptr st with
  | nil =>
    refine ⟨hv, .inr ⟨?_, rfl, fun w _ => rfl, fun h => by cases h⟩⟩
    intro k h1 h2
    simp at h2; omega
  | cons c l ih =>
    have hcb : IsLetter c := hl.lt c (by simp)
    have hv' := hc _ _ hv hcb
    have hl' : Bytes l := fun x hx => hl x (List.mem_cons_of_mem _ hx)
    by_cases hf : sc.final (sc.step st c) = true
    · have hp : naive sc (shortestPrefixPred sc) (c :: l) ptr st none = ⟨sc.step st c, some (ptr + 1), true⟩ := by
        simp [Scn.naive, shortestPrefixPred, hf]
      rw [hp]
      refine ⟨hv', .inl ⟨1, by omega, by simp, by simpa using hf, by omega, rfl, rfl⟩⟩
    · by_cases hdd : sc.dead (sc.step st c) = true
      · have hp : naive sc (shortestPrefixPred sc) (c :: l) ptr st none = ⟨sc.step st c, none, true⟩ := by
          simp [Scn.naive, shortestPrefixPred, hf, hdd]
        rw [hp]
        refine ⟨hv', .inr ⟨?_, rfl, ?_, ?_⟩⟩
        · intro k h1 h2
          obtain ⟨k, rfl⟩ : ∃ k', k = k' + 1 := ⟨k - 1, by omega⟩
          rw [List.take_succ_cons, after_cons]
          exact hd _ hv' hdd _ fun x hx => hl'.lt x (List.mem_of_mem_take hx)
        · intro w hw
          rw [List.cons_append, after_cons, hd _ hv' hdd _ hw, hd _ hv' hdd]
          intro x hx
          rcases List.mem_append.1 hx with hx | hx
          · exact hl'.lt x hx
          · exact hw x hx
        · intro _ w hw; exact hd _ hv' hdd _ hw
      · have hp : naive sc (shortestPrefixPred sc) (c :: l) ptr st none =
            naive sc (shortestPrefixPred sc) l (ptr + 1) (sc.step st c) none := by
          simp [Scn.naive, shortestPrefixPred, hf, hdd]
        rw [hp]
        obtain ⟨a1, a2⟩ := ih hl' (ptr + 1) hv'
        refine ⟨a1, ?_⟩
        rcases a2 with ⟨k, h1, h2, h3, h4, h5, h6⟩ | ⟨h1, h2, h3, h4⟩
        · refine .inl ⟨k + 1, by omega, by simpa using h2, by simpa using h3, ?_, by rw [h5]; congr 1; omega, h6⟩
          intro j hj1 hj2
          obtain ⟨j, rfl⟩ : ∃ k', j = k' + 1 := ⟨j - 1, by omega⟩
          rw [List.take_succ_cons, after_cons]
          by_cases hj0 : j = 0
          · subst hj0; simpa using hf
          · exact h4 j (by omega) (by omega)
        · refine .inr ⟨?_, h2, h3, h4⟩
          intro k hk1 hk2
          obtain ⟨k, rfl⟩ : ∃ k', k = k' + 1 := ⟨k - 1, by omega⟩
          rw [List.take_succ_cons, after_cons]
          by_cases hk0 : k = 0
          · subst hk0; simpa using hf
          · exact h1 k (by omega) (by simpa using hk2)

theorem short_runSpec {m : Masks σ} {sc : Scn σ α} {V : σ → Prop} (hc : Closed sc V) (hd : DeadSound sc V)
    (hm : ∀ st, V st → MaskSound m sc st) :
    RunSpec m sc (shortestPrefixPred sc) (fun st acc => V st ∧ acc = none ∧ sc.final st = false) (shortPost sc V) where
  naive := by
    rintro st acc l ptr ⟨hv, rfl, _⟩ hl
    exact naive_shortest hc hd hl ptr hv
  inv := by
    rintro st acc l ptr r ⟨hv, rfl, hf⟩ hl ⟨a1, a2⟩ hs
    rcases a2 with ⟨k, h1, h2, h3, h4, h5, h6⟩ | ⟨h1, h2, h3, h4⟩
    · rw [h6] at hs; cases hs
    · refine ⟨a1, h2, ?_⟩
      have := h3 [] (by simp)
      rw [after_nil, List.append_nil] at this
      rw [this]
      by_cases hl0 : l = []
      · subst hl0; exact hf
      · have hlen : 1 ≤ l.length := by
          rcases l with _ | ⟨x, l⟩
          · exact absurd rfl hl0
          · simp
        have := h1 l.length hlen le_rfl
        rwa [List.take_length] at this
  comp := by
    rintro st acc l l' ptr r r' ⟨hv, rfl, hf⟩ hl hl' ⟨a1, a2⟩ hs ⟨b1, b2⟩
    refine ⟨b1, ?_⟩
    rcases a2 with ⟨k, h1, h2, h3, h4, h5, h6⟩ | ⟨h1, h2, h3, h4⟩
    · rw [h6] at hs; cases hs
    have htr : ∀ j, j ≤ l'.length → sc.final (sc.after r.st (l'.take j)) = sc.final (sc.after st ((l ++ l').take (l.length + j))) := by
      intro j hj
      rw [h3 _ (fun c hc => hl'.lt c (List.mem_of_mem_take hc)), take_append_ge (by omega), Nat.add_sub_cancel_left]
    have hlow : ∀ k, 1 ≤ k → k ≤ l.length → sc.final (sc.after st ((l ++ l').take k)) = false := by
      intro k hk1 hk2
      rw [take_append_le hk2]; exact h1 k hk1 hk2
    rcases b2 with ⟨k, g1, g2, g3, g4, g5, g6⟩ | ⟨g1, g2, g3, g4⟩
    · refine .inl ⟨l.length + k, by omega, by simp; omega, by rw [← htr k g2]; exact g3, ?_, by rw [g5]; congr 1; omega, g6⟩
      intro j hj1 hj2
      by_cases hjl : j ≤ l.length
      · exact hlow j hj1 hjl
      · obtain ⟨j', rfl⟩ : ∃ j', j = l.length + j' := ⟨j - l.length, by omega⟩
        rw [← htr j' (by omega)]
        exact g4 j' (by omega) (by omega)
    · refine .inr ⟨?_, g2, ?_, g4⟩
      · intro j hj1 hj2
        by_cases hjl : j ≤ l.length
        · exact hlow j hj1 hjl
        · obtain ⟨j', rfl⟩ : ∃ j', j = l.length + j' := ⟨j - l.length, by omega⟩
          rw [List.length_append] at hj2
          rw [← htr j' (by omega)]
          exact g1 j' (by omega) (by omega)
      · intro w hw
        rw [g3 w hw, h3 (l' ++ w) (by
          intro c hc
          rcases List.mem_append.1 hc with hc | hc
          · exact hl'.lt c hc
          · exact hw c hc), List.append_assoc]
  stop := by
    rintro st acc l l' ptr r ⟨hv, rfl, hf⟩ hl hl' ⟨a1, a2⟩ hs
    refine ⟨a1, ?_⟩
    rcases a2 with ⟨k, h1, h2, h3, h4, h5, h6⟩ | ⟨h1, h2, h3, h4⟩
    · refine .inl ⟨k, h1, by simp; omega, by rw [take_append_le h2]; exact h3, ?_, h5, h6⟩
      intro j hj1 hj2
      rw [take_append_le (by omega)]; exact h4 j hj1 hj2
    · have hz := h4 hs
      refine .inr ⟨?_, h2, ?_, h4⟩
      · intro k hk1 hk2
        by_cases hkl : k ≤ l.length
        · rw [take_append_le hkl]; exact h1 k hk1 hkl
        · rw [take_append_ge (by omega), ← h3 _ (fun c hc => hl'.lt c (List.mem_of_mem_take hc))]
          exact hz _ (fun c hc => hl'.lt c (List.mem_of_mem_take hc))
      · intro w hw
        rw [hz w hw, List.append_assoc, ← h3, hz]
        all_goals
          intro c hc
          rcases List.mem_append.1 hc with hc | hc
          · exact hl'.lt c hc
          · exact hw c hc
  skip := by
    rintro st acc l ptr ⟨hv, rfl, hf⟩ hl _ _ h
    refine ⟨hv, .inr ⟨?_, rfl, ?_, fun h => by cases h⟩⟩
    · intro k _ _
      rw [after_stay fun c hc => h c (List.mem_of_mem_take hc)]; exact hf
    · intro w _; rw [after_append, after_stay h]
  noExit := by
    rintro st acc l ptr ⟨hv, rfl, hf⟩ hl _ _ h
    simp only [shortestPrefixPred, hf, Bool.false_eq_true, if_false]
    refine ⟨hv, .inr ⟨?_, rfl, ?_, fun h => hd st hv h⟩⟩
    · intro k _ _
      rw [after_stay fun c hc => h c (List.mem_of_mem_take hc)]; exact hf
    · intro w _; rw [after_append, after_stay h]
  sound := fun st _ h => hm st h.1

theorem shortestWith_spec {sc : Scn σ α} {V : σ → Prop} (hc : Closed sc V) (hv : V sc.initial)
    {doRun : Pred σ (Option Nat) → Nat → Nat → σ → Option Nat → σ × Option Nat} {text : List Nat} {b e : Nat} (hbe : b + text.length = e)
    (hrun : ∀ st, V st → sc.final st = false → ∃ stop, shortPost sc V st none text b
      ⟨(doRun (shortestPrefixPred sc) b e st none).1, (doRun (shortestPrefixPred sc) b e st none).2, stop⟩)
    (tb te : Bool) : shortestSpec sc text tb te b (shortestPrefixWith doRun sc b e tb te) := by
  have hv0 : V (startState sc BeginMark tb) := by
    unfold startState
    split
    · exact hc _ _ hv (by decide)
    · exact hv
  unfold shortestPrefixWith shortestSpec
  simp only
  rw [show (if tb = true then sc.step sc.initial BeginMark else sc.initial) = startState sc BeginMark tb from rfl]
  generalize startState sc BeginMark tb = s0 at hv0
  by_cases hf : sc.final s0 = true
  · rw [if_pos hf]
    exact ⟨some 0, ⟨by omega, by simpa using hf, by omega⟩, rfl⟩
  · rw [if_neg hf]
    have hf' : sc.final s0 = false := by simpa using hf
    obtain ⟨stop, -, hp⟩ := hrun s0 hv0 hf'
    generalize doRun (shortestPrefixPred sc) b e s0 none = rr at hp
    obtain ⟨st, pos⟩ := rr
    simp only at hp ⊢
    rcases hp with ⟨k, h1, h2, h3, h4, h5, h6⟩ | ⟨h1, h2, h3, h4⟩
    · refine ⟨some k, ⟨h2, h3, ?_⟩, ?_⟩
      · intro j hj
        by_cases hj0 : j = 0
        · subst hj0; simpa using hf'
        · exact ne_of_eq_of_ne (h4 j (by omega) hj) Bool.false_ne_true
      · subst h5
        simp
    · refine ⟨none, ?_, ?_⟩
      · intro k hk
        by_cases hk0 : k = 0
        · subst hk0; simpa using hf'
        · exact ne_of_eq_of_ne (h1 k (by omega) hk) Bool.false_ne_true
      · subst h2
        have := h3 [EndMark] (by intro c hc; rw [List.mem_singleton.1 hc]; decide)
        rw [after_cons, after_nil] at this
        rw [this, hbe]
        cases te <;> simp

/-! ### Longest prefix -/

def longPost (sc : Scn σ α) (V : σ → Prop) (st : σ) (acc : Option Nat) (l : List Nat) (ptr : Nat) (r : Res σ (Option Nat)) : Prop :=
  V r.st ∧
  ((∃ k, 1 ≤ k ∧ k ≤ l.length ∧ sc.final (sc.after st (l.take k)) = true ∧
      (∀ j, k < j → j ≤ l.length → sc.final (sc.after st (l.take j)) = false) ∧ r.acc = some (ptr + k)) ∨
   ((∀ k, 1 ≤ k → k ≤ l.length → sc.final (sc.after st (l.take k)) = false) ∧ r.acc = acc)) ∧
  (∀ w : List Nat, (∀ c ∈ w, IsLetter c) → sc.final (sc.after r.st w) = sc.final (sc.after st (l ++ w))) ∧
  (r.stop = true → ∀ w : List Nat, (∀ c ∈ w, IsLetter c) → sc.final (sc.after r.st w) = false)

theorem longPost_comp {sc : Scn σ α} {V : σ → Prop} {st : σ} {acc : Option Nat} {l l' : List Nat} {ptr : Nat}
    {r r' : Res σ (Option Nat)} (hl' : Bytes l') (a : longPost sc V st acc l ptr r)
    (b : longPost sc V r.st r.acc l' (ptr + l.length) r') : longPost sc V st acc (l ++ l') ptr r' := by
  obtain ⟨a1, a2, a3, a4⟩ := a
  obtain ⟨b1, b2, b3, b4⟩ := b
  have htr : ∀ j, j ≤ l'.length → sc.final (sc.after r.st (l'.take j)) = sc.final (sc.after st ((l ++ l').take (l.length + j))) := by
    intro j hj
    rw [a3 _ (fun c hc => hl'.lt c (List.mem_of_mem_take hc)), take_append_ge (by omega), Nat.add_sub_cancel_left]
  refine ⟨b1, ?_, ?_, b4⟩
  · rcases b2 with ⟨k, g1, g2, g3, g4, g5⟩ | ⟨g1, g2⟩
    · refine .inl ⟨l.length + k, by omega, by simp; omega, by rw [← htr k g2]; exact g3, ?_, by rw [g5]; congr 1; omega⟩
      intro j hj1 hj2
      obtain ⟨j', rfl⟩ : ∃ j', j = l.length + j' := ⟨j - l.length, by omega⟩
      rw [List.length_append] at hj2
      rw [← htr j' (by omega)]
      exact g4 j' (by omega) (by omega)
    · have hhigh : ∀ j, l.length < j → j ≤ (l ++ l').length → sc.final (sc.after st ((l ++ l').take j)) = false := by
        intro j hj1 hj2
        obtain ⟨j', rfl⟩ : ∃ j', j = l.length + j' := ⟨j - l.length, by omega⟩
        rw [List.length_append] at hj2
        rw [← htr j' (by omega)]
        exact g1 j' (by omega) (by omega)
      rcases a2 with ⟨k, h1, h2, h3, h4, h5⟩ | ⟨h1, h2⟩
      · refine .inl ⟨k, h1, by simp; omega, by rw [take_append_le h2]; exact h3, ?_, by rw [g2, h5]⟩
        intro j hj1 hj2
        by_cases hjl : j ≤ l.length
        · rw [take_append_le hjl]; exact h4 j hj1 hjl
        · exact hhigh j (by omega) hj2
      · refine .inr ⟨?_, by rw [g2, h2]⟩
        intro j hj1 hj2
        by_cases hjl : j ≤ l.length
        · rw [take_append_le hjl]; exact h1 j hj1 hjl
        · exact hhigh j (by omega) hj2
  · intro w hw
    rw [b3 w hw, a3 (l' ++ w) (by
      intro c hc
      rcases List.mem_append.1 hc with hc | hc
      · exact hl'.lt c hc
      · exact hw c hc), List.append_assoc]

theorem longPost_stop {sc : Scn σ α} {V : σ → Prop} {st : σ} {acc : Option Nat} {l l' : List Nat} {ptr : Nat}
    {r : Res σ (Option Nat)} (hl' : Bytes l') (a : longPost sc V st acc l ptr r) (hs : r.stop = true) :
    longPost sc V st acc (l ++ l') ptr r := by
  have hz := a.2.2.2 hs
  refine longPost_comp hl' a ⟨a.1, .inr ⟨?_, rfl⟩, ?_, a.2.2.2⟩
  · intro k _ _
    exact hz _ (fun c hc => hl'.lt c (List.mem_of_mem_take hc))
  · intro w hw
    rw [hz w hw, hz]
    intro c hc
    rcases List.mem_append.1 hc with hc | hc
    · exact hl'.lt c hc
    · exact hw c hc

theorem naive_longest {sc : Scn σ α} {V : σ → Prop} (hc : Closed sc V) (hd : DeadSound sc V) {l : List Nat} (hl : Bytes l)
    (ptr : Nat) {st : σ} (hv : V st) (acc : Option Nat) : longPost sc V st acc l ptr (naive sc (longestPrefixPred sc) l ptr st acc) := by
  induction l generalizing ptr st acc with
  | nil =>
    refine ⟨hv, .inr ⟨?_, rfl⟩, fun w _ => rfl, fun h => by cases h⟩
    intro k h1 h2
    simp at h2; omega
  | cons c l ih =>
    have hcb : IsLetter c := hl.lt c (by simp)
    have hv' := hc _ _ hv hcb
    have hl' : Bytes l := fun x hx => hl x (List.mem_cons_of_mem _ hx)
    -- one byte
    have one : longPost sc V st acc [c] ptr ⟨sc.step st c, if sc.final (sc.step st c) = true then some (ptr + 1) else acc, sc.dead (sc.step st c)⟩ := by
      refine ⟨hv', ?_, fun w _ => rfl, fun h => hd _ hv' h⟩
      by_cases hf : sc.final (sc.step st c) = true
      · refine .inl ⟨1, le_rfl, by simp, by simpa using hf, ?_, by simp [hf]⟩
        intro j h1 h2; simp at h2; omega
      · refine .inr ⟨?_, by simp [hf]⟩
        intro k h1 h2
        have : k = 1 := by simp at h2; omega
        subst this
        simpa using hf
    have := naive_append sc (longestPrefixPred sc) [c] l ptr st acc
    rw [List.singleton_append] at this
    rw [this, show c :: l = [c] ++ l from rfl]
    have h1 : naive sc (longestPrefixPred sc) [c] ptr st acc =
        ⟨sc.step st c, if sc.final (sc.step st c) = true then some (ptr + 1) else acc, sc.dead (sc.step st c)⟩ := by
      unfold Scn.naive
      simp only [longestPrefixPred, Scn.naive]
      by_cases hdd : sc.dead (sc.step st c) = true
      · simp [hdd]
      · simp [hdd]
    rw [h1]
    unfold Res.andThen
    simp only
    by_cases hdd : sc.dead (sc.step st c) = true
    · rw [if_pos hdd]; exact longPost_stop hl' one hdd
    · rw [if_neg hdd]
      exact longPost_comp hl' one (ih hl' _ hv' _)

theorem long_runSpec {m : Masks σ} {sc : Scn σ α} {V : σ → Prop} (hc : Closed sc V) (hd : DeadSound sc V)
    (hm : ∀ st, V st → MaskSound m sc st)
    (hg : ∀ st, V st → sc.final st = true → m.noShortcut st = true ∨ m.noExit st = true) :
    RunSpec m sc (longestPrefixPred sc) (fun st _ => V st) (longPost sc V) where
  naive := fun st acc l ptr hv hl => naive_longest hc hd hl ptr hv acc
  inv := fun st acc l ptr r _ _ h _ => h.1
  comp := fun st acc l l' ptr r r' _ _ hl' h _ h' => longPost_comp hl' h h'
  stop := fun st acc l l' ptr r _ _ hl' h hs => longPost_stop hl' h hs
  skip := by
    intro st acc l ptr hv hl h1 h2 h
    have hf : sc.final st = false := by
      cases hf : sc.final st with
      | false => rfl
      | true => rcases hg st hv hf with h' | h' <;> simp_all
    refine ⟨hv, .inr ⟨?_, rfl⟩, ?_, fun h => by cases h⟩
    · intro k _ _
      rw [after_stay fun c hc => h c (List.mem_of_mem_take hc)]; exact hf
    · intro w _; rw [after_append, after_stay h]
  noExit := by
    intro st acc l ptr hv hl hne hl0 h
    refine ⟨hv, ?_, ?_, fun h => hd st hv h⟩
    · cases hf : sc.final st with
      | true =>
        refine .inl ⟨l.length, ?_, le_rfl, by rw [List.take_length, after_stay h]; exact hf, by omega, by simp [longestPrefixPred, hf]⟩
        rcases l with _ | ⟨x, l⟩
        · exact absurd rfl hl0
        · simp
      | false =>
        refine .inr ⟨?_, by simp [longestPrefixPred, hf]⟩
        intro k _ _
        rw [after_stay fun c hc => h c (List.mem_of_mem_take hc)]; exact hf
    · intro w _; rw [after_append, after_stay h]
  sound := fun st _ h => hm st h

theorem longestWith_spec {sc : Scn σ α} {V : σ → Prop} (hc : Closed sc V) (hv : V sc.initial)
    {doRun : Pred σ (Option Nat) → Nat → Nat → σ → Option Nat → σ × Option Nat} {text : List Nat} {b e : Nat} (hbe : b + text.length = e)
    (hrun : ∀ st acc, V st → ∃ stop, longPost sc V st acc text b
      ⟨(doRun (longestPrefixPred sc) b e st acc).1, (doRun (longestPrefixPred sc) b e st acc).2, stop⟩)
    (tb te : Bool) : longestSpec sc text tb te b (longestPrefixWith doRun sc b e tb te) := by
  have hv0 : V (startState sc BeginMark tb) := by
    unfold startState
    split
    · exact hc _ _ hv (by decide)
    · exact hv
  unfold longestPrefixWith longestSpec
  simp only
  rw [show (if tb = true then sc.step sc.initial BeginMark else sc.initial) = startState sc BeginMark tb from rfl]
  generalize startState sc BeginMark tb = s0 at hv0
  obtain ⟨stop, -, h2, h3, -⟩ := hrun s0 (if sc.final s0 = true then some b else none) hv0
  generalize doRun (longestPrefixPred sc) b e s0 (if sc.final s0 = true then some b else none) = rr at h2 h3
  obtain ⟨st, pos⟩ := rr
  simp only at h2 h3 ⊢
  have hpos : ∃ k, Longest (fun k => sc.final (sc.after s0 (text.take k)) = true) text.length k ∧ pos = k.map (b + ·) := by
    rcases h2 with ⟨k, h4, h5, h6, h7, h8⟩ | ⟨h4, h5⟩
    · exact ⟨some k, ⟨h5, h6, fun j hj hk => by exact ne_of_eq_of_ne (h7 j hk hj) Bool.false_ne_true⟩, h8⟩
    · by_cases hf : sc.final s0 = true
      · refine ⟨some 0, ⟨by omega, by simpa using hf, fun j hj hk => by exact ne_of_eq_of_ne (h4 j hk hj) Bool.false_ne_true⟩, ?_⟩
        rw [h5, if_pos hf]; rfl
      · refine ⟨none, ?_, by rw [h5, if_neg hf]; rfl⟩
        intro k hk
        by_cases hk0 : k = 0
        · subst hk0; simpa using hf
        · exact ne_of_eq_of_ne (h4 k (by omega) hk) Bool.false_ne_true
  have hend := h3 [EndMark] (by intro c hc; rw [List.mem_singleton.1 hc]; decide)
  rw [after_cons, after_nil] at hend
  rw [hend, hbe]
  cases te with
  | false => simpa using hpos
  | true =>
    simp only [if_true, true_and]
    split
    · rfl
    · exact hpos

/-! ### Longest prefix with shortcuts, without the guard -/

def weakPost (sc : Scn σ α) (V : σ → Prop) (st : σ) (acc : Option Nat) (l : List Nat) (ptr : Nat) (r : Res σ (Option Nat)) : Prop :=
  V r.st ∧
  (r.acc = acc ∨ ∃ k, k ≤ l.length ∧ sc.final (sc.after st (l.take k)) = true ∧ r.acc = some (ptr + k)) ∧
  (r.acc = none → ∀ k, k ≤ l.length → sc.final (sc.after st (l.take k)) = false) ∧
  (∀ w : List Nat, (∀ c ∈ w, IsLetter c) → sc.final (sc.after r.st w) = sc.final (sc.after st (l ++ w))) ∧
  (r.stop = true → ∀ w : List Nat, (∀ c ∈ w, IsLetter c) → sc.final (sc.after r.st w) = false)

theorem longPost.weak {sc : Scn σ α} {V : σ → Prop} {st : σ} {acc : Option Nat} {l : List Nat} {ptr : Nat}
    {r : Res σ (Option Nat)} (h : longPost sc V st acc l ptr r) (hi : sc.final st = true → acc ≠ none) : weakPost sc V st acc l ptr r := by
  obtain ⟨a1, a2, a3, a4⟩ := h
  refine ⟨a1, ?_, ?_, a3, a4⟩
  · rcases a2 with ⟨k, h1, h2, h3, h4, h5⟩ | ⟨h1, h2⟩
    · exact .inr ⟨k, h2, h3, h5⟩
    · exact .inl h2
  · intro hn k hk
    rcases a2 with ⟨k, h1, h2, h3, h4, h5⟩ | ⟨h1, h2⟩
    · rw [hn] at h5; cases h5
    · by_cases hk0 : k = 0
      · subst hk0
        cases hf : sc.final st with
        | true => exact absurd (h2 ▸ hn) (hi hf)
        | false => simpa using hf
      · exact h1 k (by omega) hk

theorem weak_runSpec {m : Masks σ} {sc : Scn σ α} {V : σ → Prop} (hc : Closed sc V) (hd : DeadSound sc V)
    (hm : ∀ st, V st → MaskSound m sc st) :
    RunSpec m sc (longestPrefixPred sc) (fun st acc => V st ∧ (sc.final st = true → acc ≠ none)) (weakPost sc V) := by
  have comp : ∀ st acc l l' ptr (r r' : Res σ (Option Nat)), (V st ∧ (sc.final st = true → acc ≠ none)) → Bytes l → Bytes l' →
      weakPost sc V st acc l ptr r → weakPost sc V r.st r.acc l' (ptr + l.length) r' → weakPost sc V st acc (l ++ l') ptr r' := by
    rintro st acc l l' ptr r r' ⟨hv, hi⟩ hl hl' ⟨a1, a2, a3, a4, a5⟩ ⟨b1, b2, b3, b4, b5⟩
    have htr : ∀ j, j ≤ l'.length → sc.final (sc.after r.st (l'.take j)) = sc.final (sc.after st ((l ++ l').take (l.length + j))) := by
      intro j hj
      rw [a4 _ (fun c hc => hl'.lt c (List.mem_of_mem_take hc)), take_append_ge (by omega), Nat.add_sub_cancel_left]
    refine ⟨b1, ?_, ?_, ?_, b5⟩
    · rcases b2 with h | ⟨k, g1, g2, g3⟩
      · rw [h]
        rcases a2 with h | ⟨k, g1, g2, g3⟩
        · exact .inl h
        · exact .inr ⟨k, by simp; omega, by rw [take_append_le g1]; exact g2, g3⟩
      · exact .inr ⟨l.length + k, by simp; omega, by rw [← htr k g1]; exact g2, by rw [g3]; congr 1; omega⟩
    · intro hn k hk
      have hrn : r.acc = none := by
        rcases b2 with h | ⟨k, g1, g2, g3⟩
        · rw [← h, hn]
        · rw [hn] at g3; cases g3
      by_cases hkl : k ≤ l.length
      · rw [take_append_le hkl]; exact a3 hrn k hkl
      · obtain ⟨j', rfl⟩ : ∃ j', k = l.length + j' := ⟨k - l.length, by omega⟩
        rw [List.length_append] at hk
        rw [← htr j' (by omega)]
        exact b3 hn j' (by omega)
    · intro w hw
      rw [b4 w hw, a4 (l' ++ w) (by
        intro c hc
        rcases List.mem_append.1 hc with hc | hc
        · exact hl'.lt c hc
        · exact hw c hc), List.append_assoc]
  have stay : ∀ (st : σ) (l : List Nat), (∀ c ∈ l, sc.step st c = st) → ∀ k, sc.after st (l.take k) = st :=
    fun st l h k => after_stay fun c hc => h c (List.mem_of_mem_take hc)
  exact {
    naive := fun st acc l ptr hi hl => (naive_longest hc hd hl ptr hi.1 acc).weak hi.2
    inv := by
      rintro st acc l ptr r ⟨hv, hi⟩ hl ⟨a1, a2, a3, a4, a5⟩ hs
      refine ⟨a1, fun hf hn => ?_⟩
      have h1 := a3 hn l.length le_rfl
      have h2 := a4 [] (by simp)
      rw [List.take_length] at h1
      rw [after_nil, List.append_nil, h1, hf] at h2
      cases h2
    comp := fun st acc l l' ptr r r' hi hl hl' h _ h' => comp _ _ _ _ _ _ _ hi hl hl' h h'
    stop := by
      rintro st acc l l' ptr r hi hl hl' h hs
      have hz := h.2.2.2.2 hs
      refine comp _ _ _ _ _ _ _ hi hl hl' h ⟨h.1, .inl rfl, ?_, ?_, h.2.2.2.2⟩
      · intro _ k _
        exact hz _ (fun c hc => hl'.lt c (List.mem_of_mem_take hc))
      · intro w hw
        rw [hz w hw, hz]
        intro c hc
        rcases List.mem_append.1 hc with hc | hc
        · exact hl'.lt c hc
        · exact hw c hc
    skip := by
      rintro st acc l ptr ⟨hv, hi⟩ hl _ _ h
      refine ⟨hv, .inl rfl, ?_, ?_, fun h => by cases h⟩
      · intro hn k _
        rw [stay st l h]
        cases hf : sc.final st with
        | true => exact absurd hn (hi hf)
        | false => rfl
      · intro w _; rw [after_append, after_stay h]
    noExit := by
      rintro st acc l ptr ⟨hv, hi⟩ hl hne hl0 h
      refine ⟨hv, ?_, ?_, ?_, fun h => hd st hv h⟩
      · cases hf : sc.final st with
        | true => exact .inr ⟨l.length, le_rfl, by rw [List.take_length, after_stay h]; exact hf, by simp [longestPrefixPred, hf]⟩
        | false => exact .inl (by simp [longestPrefixPred, hf])
      · intro hn k _
        rw [stay st l h]
        cases hf : sc.final st with
        | true => simp [longestPrefixPred, hf] at hn
        | false => rfl
      · intro w _; rw [after_append, after_stay h]
    sound := fun st _ h => hm st h.1 }

theorem someWith_spec {sc : Scn σ α} {V : σ → Prop} (hc : Closed sc V) (hv : V sc.initial)
    {doRun : Pred σ (Option Nat) → Nat → Nat → σ → Option Nat → σ × Option Nat} {text : List Nat} {b e : Nat} (hbe : b + text.length = e)
    (hrun : ∀ st acc, V st → (sc.final st = true → acc ≠ none) → ∃ stop, weakPost sc V st acc text b
      ⟨(doRun (longestPrefixPred sc) b e st acc).1, (doRun (longestPrefixPred sc) b e st acc).2, stop⟩)
    (tb te : Bool) : someSpec sc text tb te b (longestPrefixWith doRun sc b e tb te) := by
  have hv0 : V (startState sc BeginMark tb) := by
    unfold startState
    split
    · exact hc _ _ hv (by decide)
    · exact hv
  unfold longestPrefixWith someSpec
  simp only
  rw [show (if tb = true then sc.step sc.initial BeginMark else sc.initial) = startState sc BeginMark tb from rfl]
  generalize startState sc BeginMark tb = s0 at hv0
  obtain ⟨stop, -, h2, hn, h3, -⟩ := hrun s0 (if sc.final s0 = true then some b else none) hv0 (by
    intro h; rw [if_pos h]; simp)
  generalize doRun (longestPrefixPred sc) b e s0 (if sc.final s0 = true then some b else none) = rr at h2 h3 hn
  obtain ⟨st, pos⟩ := rr
  simp only at h2 h3 hn ⊢
  have hpos : ∃ k, SomeAccepted (fun k => sc.final (sc.after s0 (text.take k)) = true) text.length k ∧ pos = k.map (b + ·) := by
    cases hpp : pos with
    | none => exact ⟨none, fun k hk => ne_of_eq_of_ne (hn hpp k hk) Bool.false_ne_true, rfl⟩
    | some p =>
      rcases h2 with h2 | ⟨k, h4, h5, h6⟩
      · by_cases hf : sc.final s0 = true
        · rw [if_pos hf, hpp] at h2
          cases h2
          exact ⟨some 0, ⟨by omega, by simpa using hf⟩, rfl⟩
        · rw [if_neg hf, hpp] at h2; cases h2
      · rw [hpp] at h6
        cases h6
        exact ⟨some k, ⟨h4, h5⟩, rfl⟩
  have hend := h3 [EndMark] (by intro c hc; rw [List.mem_singleton.1 hc]; decide)
  rw [after_cons, after_nil] at hend
  rw [hend, hbe]
  cases te with
  | false => simpa using hpos
  | true =>
    simp only [if_true, true_and]
    split
    · rfl
    · exact hpos

/-! ### Suffix searches -/

@[simp] theorem bytesBack_length (mem : Mem) (rb n : Nat) : (bytesBack mem rb n).length = n := by
  induction n generalizing rb with
  | zero => rfl
  | succ n ih => simp [bytesBack, ih]

theorem bytesBack_bytes (mem : Mem) (rb n : Nat) : Bytes (bytesBack mem rb n) := by
  induction n generalizing rb with
  | zero => intro c hc; cases hc
  | succ n ih =>
    intro c hc
    rcases List.mem_cons.1 hc with rfl | hc
    · exact (mem _).isLt
    · exact ih _ c hc

theorem longestSuffixLoop_spec {sc : Scn σ α} {V : σ → Prop} (hc : Closed sc V) (hd : DeadSound sc V) (mem : Mem) (n rb : Nat)
    (hn : n ≤ rb) (st : σ) (hv : V st) (pos : Option Nat) :
    ∃ k ≤ n, ∃ st' pos', longestSuffixLoop sc mem n rb st pos = (rb - k, st', pos') ∧
      st' = sc.after st ((bytesBack mem rb n).take k) ∧ (k = n ∨ sc.dead st' = true) ∧
      ((∃ j < k, sc.final (sc.after st ((bytesBack mem rb n).take j)) = true ∧ pos' = some (rb - j) ∧
        ∀ i, j < i → i < k → sc.final (sc.after st ((bytesBack mem rb n).take i)) = false) ∨
       (pos' = pos ∧ ∀ i < k, sc.final (sc.after st ((bytesBack mem rb n).take i)) = false)) := by
  induction n generalizing rb st pos with
  | zero => exact ⟨0, le_rfl, st, pos, rfl, rfl, .inl rfl, .inr ⟨rfl, by omega⟩⟩
  | succ n ih =>
    rw [longestSuffixLoop]
    by_cases hdd : sc.dead st = true
    · rw [if_pos hdd]
      exact ⟨0, by omega, st, pos, rfl, rfl, .inr hdd, .inr ⟨rfl, by omega⟩⟩
    · rw [if_neg hdd]
      have hv' : V (sc.step st (mem (rb - 1))) := hc _ _ hv (by have := (mem (rb - 1)).isLt; exact ⟨by omega, by omega⟩)
      obtain ⟨k, hk, st', pos', h1, h2, h3, h4⟩ := ih (rb - 1) (by omega) _ hv' (if sc.final st = true then some rb else pos)
      refine ⟨k + 1, by omega, st', pos', ?_, ?_, ?_, ?_⟩
      · simp only
        rw [h1]; congr 1; omega
      · rw [bytesBack, List.take_succ_cons, after_cons]; exact h2
      · rcases h3 with h3 | h3
        · exact .inl (by omega)
        · exact .inr h3
      · have shift : ∀ i, sc.after st ((bytesBack mem rb (n + 1)).take (i + 1)) =
            sc.after (sc.step st (mem (rb - 1))) ((bytesBack mem (rb - 1) n).take i) := by
          intro i; rw [bytesBack, List.take_succ_cons, after_cons]
        rcases h4 with ⟨j, hj, g1, g2, g3⟩ | ⟨g1, g2⟩
        · refine .inl ⟨j + 1, by omega, by rw [shift]; exact g1, by rw [g2]; congr 1; omega, ?_⟩
          intro i hi1 hi2
          obtain ⟨i, rfl⟩ : ∃ i', i = i' + 1 := ⟨i - 1, by omega⟩
          rw [shift]; exact g3 i (by omega) (by omega)
        · by_cases hf : sc.final st = true
          · refine .inl ⟨0, by omega, by simpa using hf, by rw [g1, if_pos hf]; rfl, ?_⟩
            intro i hi1 hi2
            obtain ⟨i, rfl⟩ : ∃ i', i = i' + 1 := ⟨i - 1, by omega⟩
            rw [shift]; exact g2 i (by omega)
          · refine .inr ⟨by rw [g1, if_neg hf], ?_⟩
            intro i hi
            cases i with
            | zero => simpa using hf
            | succ i => rw [shift]; exact g2 i (by omega)

theorem longestSuffix_spec {sc : Scn σ α} {V : σ → Prop} (hc : Closed sc V) (hd : DeadSound sc V) (hv : V sc.initial) (mem : Mem)
    {rb re : Nat} (h : re ≤ rb) (te tb : Bool) :
    longestSuffixSpec sc (bytesBack mem rb (rb - re)) te tb rb (longestSuffix sc mem rb re te tb) := by
  have hv0 : V (startState sc EndMark te) := by
    unfold startState
    split
    · exact hc _ _ hv (by decide)
    · exact hv
  unfold longestSuffix longestSuffixSpec
  simp only
  rw [show (if te = true then sc.step sc.initial EndMark else sc.initial) = startState sc EndMark te from rfl]
  generalize startState sc EndMark te = s0 at hv0
  obtain ⟨k, hk, st', pos', h1, h2, h3, h4⟩ := longestSuffixLoop_spec hc hd mem (rb - re) rb (by omega) s0 hv0 none
  rw [h1]
  have hB : ∀ c ∈ bytesBack mem rb (rb - re), IsLetter c := (bytesBack_bytes mem rb (rb - re)).lt
  have hlen : (bytesBack mem rb (rb - re)).length = rb - re := bytesBack_length ..
  generalize bytesBack mem rb (rb - re) = text at h2 h4 hB hlen
  have hvs : V st' := by
    rw [h2]; exact hc.after hv0 fun c hc => hB c (List.mem_of_mem_take hc)
  -- everything after position `k` is rejected
  have hafter : ∀ j, k < j → j ≤ text.length → sc.final (sc.after s0 (text.take j)) = false := by
    intro j hj1 hj2
    rcases h3 with h3 | h3
    · omega
    · have e : text.take j = text.take k ++ (text.take j).drop k := by
        rw [show text.take k = (text.take j).take k by rw [List.take_take, min_eq_left (by omega)], List.take_append_drop]
      rw [e, after_append, ← h2]
      exact hd _ hvs h3 _ fun c hc => hB c (List.mem_of_mem_take (List.mem_of_mem_drop hc))
  have hend : sc.final (sc.step st' BeginMark) = sc.final (sc.after s0 (text ++ [BeginMark])) := by
    rcases h3 with h3 | h3
    · rw [h2, h3, ← hlen, List.take_length, after_append]; rfl
    · have e : text ++ [BeginMark] = text.take k ++ (text.drop k ++ [BeginMark]) := by
        rw [← List.append_assoc, List.take_append_drop]
      have := hd _ hvs h3 [BeginMark] (by intro c hc; rw [List.mem_singleton.1 hc]; decide)
      rw [after_cons, after_nil] at this
      rw [this, e, after_append, ← h2, hd _ hvs h3]
      intro c hc
      rcases List.mem_append.1 hc with hc | hc
      · exact hB c (List.mem_of_mem_drop hc)
      · rw [List.mem_singleton.1 hc]; decide
  have hpos : ∃ k', Longest (fun k => sc.final (sc.after s0 (text.take k)) = true) text.length k' ∧
      (if sc.final st' = true then some (rb - k) else pos') = k'.map (rb - ·) := by
    by_cases hf : sc.final st' = true
    · rw [if_pos hf]
      refine ⟨some k, ⟨by omega, by beta_reduce; rw [← h2]; exact hf, ?_⟩, rfl⟩
      intro j hj1 hj2
      exact ne_of_eq_of_ne (hafter j hj2 hj1) Bool.false_ne_true
    · rw [if_neg hf]
      rcases h4 with ⟨j, hj, g1, g2, g3⟩ | ⟨g1, g2⟩
      · refine ⟨some j, ⟨by omega, g1, ?_⟩, g2⟩
        intro i hi1 hi2
        rcases Nat.lt_trichotomy i k with hik | hik | hik
        · exact ne_of_eq_of_ne (g3 i hi2 hik) Bool.false_ne_true
        · subst hik
          beta_reduce
          rw [← h2]; exact hf
        · exact ne_of_eq_of_ne (hafter i hik hi1) Bool.false_ne_true
      · refine ⟨none, ?_, g1⟩
        intro i hi1
        rcases Nat.lt_trichotomy i k with hik | hik | hik
        · exact ne_of_eq_of_ne (g2 i hik) Bool.false_ne_true
        · subst hik
          beta_reduce
          rw [← h2]; exact hf
        · exact ne_of_eq_of_ne (hafter i hik hi1) Bool.false_ne_true
  rw [hend]
  cases tb with
  | false => simpa using hpos
  | true =>
    simp only [if_true, true_and]
    by_cases hB' : sc.final (sc.after s0 (text ++ [BeginMark])) = true
    · rw [if_pos hB', if_pos hB']
      rcases h3 with h3 | h3
      · rw [h3, hlen]
      · have := hd _ hvs h3 [BeginMark] (by intro c hc; rw [List.mem_singleton.1 hc]; decide)
        rw [after_cons, after_nil, hend, hB'] at this
        cases this
    · rw [if_neg hB', if_neg hB']; exact hpos

theorem shortestSuffixLoop_spec {sc : Scn σ α} (hact : ∀ st c, sc.step st c = (sc.next st c).1) (mem : Mem) (n rb : Nat)
    (hn : n ≤ rb) (st : σ) :
    ∃ k ≤ n, shortestSuffixLoop sc mem n rb st = (rb - k, sc.after st ((bytesBack mem rb n).take k)) ∧
      (∀ i < k, sc.final (sc.after st ((bytesBack mem rb n).take i)) = false) ∧
      (k = n ∨ sc.final (sc.after st ((bytesBack mem rb n).take k)) = true ∨ sc.dead (sc.after st ((bytesBack mem rb n).take k)) = true) := by
  induction n generalizing rb st with
  | zero => exact ⟨0, le_rfl, rfl, by omega, .inl rfl⟩
  | succ n ih =>
    rw [shortestSuffixLoop]
    by_cases hs : (sc.final st || sc.dead st) = true
    · rw [if_pos hs]
      refine ⟨0, by omega, rfl, by omega, .inr ?_⟩
      simpa using hs
    · rw [if_neg hs]
      have hf : sc.final st = false := by
        cases hf : sc.final st with
        | true => rw [hf] at hs; simp at hs
        | false => rfl
      obtain ⟨k, hk, h1, h2, h3⟩ := ih (rb - 1) (by omega) (sc.next st (mem (rb - 1))).1
      have shift : ∀ i, sc.after st ((bytesBack mem rb (n + 1)).take (i + 1)) =
          sc.after (sc.next st (mem (rb - 1))).1 ((bytesBack mem (rb - 1) n).take i) := by
        intro i; rw [bytesBack, List.take_succ_cons, after_cons, hact]
      refine ⟨k + 1, by omega, ?_, ?_, ?_⟩
      · rw [shift, h1]; congr 1; omega
      · intro i hi
        cases i with
        | zero => simpa using hf
        | succ i => rw [shift]; exact h2 i (by omega)
      · rw [shift]
        rcases h3 with h3 | h3
        · exact .inl (by omega)
        · exact .inr h3

theorem shortestSuffix_spec {sc : Scn σ α} {V : σ → Prop} (hc : Closed sc V) (hd : DeadSound sc V) (hv : V sc.initial)
    (hact : ∀ st c, sc.step st c = (sc.next st c).1) (mem : Mem) {rb re : Nat} (h : re ≤ rb) (te : Bool) :
    ∃ k, Shortest (fun k => sc.final (sc.after (startState sc EndMark te) ((bytesBack mem rb (rb - re)).take k)) = true) (rb - re) k ∧
      shortestSuffix sc mem rb re te false = k.map (rb - ·) := by
  have hv0 : V (startState sc EndMark te) := by
    unfold startState
    split
    · exact hc _ _ hv (by decide)
    · exact hv
  unfold shortestSuffix
  simp only
  rw [show (if te = true then sc.step sc.initial EndMark else sc.initial) = startState sc EndMark te from rfl]
  generalize startState sc EndMark te = s0 at hv0
  obtain ⟨k, hk, h1, h2, h3⟩ := shortestSuffixLoop_spec hact mem (rb - re) rb (by omega) s0
  rw [h1]
  have hB : ∀ c ∈ bytesBack mem rb (rb - re), IsLetter c := (bytesBack_bytes mem rb (rb - re)).lt
  have hlen : (bytesBack mem rb (rb - re)).length = rb - re := bytesBack_length ..
  generalize bytesBack mem rb (rb - re) = text at h2 h3 hB hlen
  simp only [Bool.false_eq_true, if_false]
  by_cases hf : sc.final (sc.after s0 (text.take k)) = true
  · rw [if_pos hf]
    exact ⟨some k, ⟨hk, hf, fun j hj => ne_of_eq_of_ne (h2 j hj) Bool.false_ne_true⟩, rfl⟩
  · rw [if_neg hf]
    refine ⟨none, ?_, rfl⟩
    intro j hj
    rcases Nat.lt_trichotomy j k with hjk | hjk | hjk
    · exact ne_of_eq_of_ne (h2 j hjk) Bool.false_ne_true
    · subst hjk; exact hf
    · rcases h3 with h3 | h3 | h3
      · omega
      · exact absurd h3 hf
      · have e : text.take j = text.take k ++ (text.take j).drop k := by
          rw [show text.take k = (text.take j).take k by rw [List.take_take, min_eq_left (by omega)], List.take_append_drop]
        have hvs : V (sc.after s0 (text.take k)) := hc.after hv0 fun c hc => hB c (List.mem_of_mem_take hc)
        refine ne_of_eq_of_ne ?_ Bool.false_ne_true
        rw [e, after_append]
        exact hd _ hvs h3 _ fun c hc => hB c (List.mem_of_mem_take (List.mem_of_mem_drop hc))

theorem shortestSuffix_mark_spec {sc : Scn σ α} {V : σ → Prop} (hc : Closed sc V) (hd : DeadSound sc V) (hv : V sc.initial)
    (hact : ∀ st c, sc.step st c = (sc.next st c).1) (mem : Mem) {rb re : Nat} (h : re ≤ rb) (te : Bool) :
    ∃ k, Shortest (fun k => sc.final (sc.after (startState sc EndMark te) ((bytesBack mem rb (rb - re)).take k)) = true) (rb - re) k ∧
      shortestSuffix sc mem rb re te true = match k with
        | some k => if sc.final (sc.after (startState sc EndMark te) ((bytesBack mem rb (rb - re)).take k ++ [BeginMark])) = true
            then some (rb - k) else none
        | none => if sc.final (sc.after (startState sc EndMark te) (bytesBack mem rb (rb - re) ++ [BeginMark])) = true
            then some re else none := by
  have hv0 : V (startState sc EndMark te) := by
    unfold startState
    split
    · exact hc _ _ hv (by decide)
    · exact hv
  unfold shortestSuffix
  simp only
  rw [show (if te = true then sc.step sc.initial EndMark else sc.initial) = startState sc EndMark te from rfl]
  generalize startState sc EndMark te = s0 at hv0
  obtain ⟨k, hk, h1, h2, h3⟩ := shortestSuffixLoop_spec hact mem (rb - re) rb (by omega) s0
  rw [h1]
  have hB : ∀ c ∈ bytesBack mem rb (rb - re), IsLetter c := (bytesBack_bytes mem rb (rb - re)).lt
  have hlen : (bytesBack mem rb (rb - re)).length = rb - re := bytesBack_length ..
  generalize bytesBack mem rb (rb - re) = text at h2 h3 hB hlen
  simp only [if_true]
  have hmark : sc.step (sc.after s0 (text.take k)) BeginMark = sc.after s0 (text.take k ++ [BeginMark]) := by
    rw [after_append, after_cons, after_nil]
  rw [hmark]
  by_cases hf : sc.final (sc.after s0 (text.take k)) = true
  · exact ⟨some k, ⟨hk, hf, fun j hj => ne_of_eq_of_ne (h2 j hj) Bool.false_ne_true⟩, rfl⟩
  · have hvs : V (sc.after s0 (text.take k)) := hc.after hv0 fun c hc => hB c (List.mem_of_mem_take hc)
    refine ⟨none, ?_, ?_⟩
    · intro j hj
      rcases Nat.lt_trichotomy j k with hjk | hjk | hjk
      · exact ne_of_eq_of_ne (h2 j hjk) Bool.false_ne_true
      · subst hjk; exact hf
      · rcases h3 with h3 | h3 | h3
        · omega
        · exact absurd h3 hf
        · have e : text.take j = text.take k ++ (text.take j).drop k := by
            rw [show text.take k = (text.take j).take k by rw [List.take_take, min_eq_left (by omega)], List.take_append_drop]
          refine ne_of_eq_of_ne ?_ Bool.false_ne_true
          rw [e, after_append]
          exact hd _ hvs h3 _ fun c hc => hB c (List.mem_of_mem_take (List.mem_of_mem_drop hc))
    · rcases h3 with h3 | h3 | h3
      · rw [List.take_of_length_le (by omega), h3, show rb - (rb - re) = re by omega]
      · exact absurd h3 hf
      · have d1 : sc.final (sc.after s0 (text.take k ++ [BeginMark])) = false := by
          rw [after_append]
          exact hd _ hvs h3 _ fun c hc => by rw [List.mem_singleton.1 hc]; decide
        have d2 : sc.final (sc.after s0 (text ++ [BeginMark])) = false := by
          conv_lhs => rw [← List.take_append_drop k text, List.append_assoc, after_append]
          refine hd _ hvs h3 _ fun c hc => ?_
          rcases List.mem_append.1 hc with hc | hc
          · exact hB c (List.mem_of_mem_drop hc)
          · rw [List.mem_singleton.1 hc]; decide
        rw [d1, d2]; rfl

end Scn
end Pire
