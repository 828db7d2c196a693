import Verif.Proofs.CountMain
import Verif.Proofs.CountBuilt

/-!
# The constructor of `CountingScanner`: the square
-/

namespace Pire

open Spec

/-- Without epsilon transitions, `RemoveEpsilons` leaves the outputs alone. -/
theorem Fsm.removeEpsilons_outputs {f : Fsm} (hr : f.Raw) (he : ∀ q, f.tr q 257 = none) : f.removeEpsilons.outputs = f.outputs := by
  have hu : f.unsparse = { f with sparsed := false } := by
    unfold Fsm.unsparse
    rw [show f.letters = Partition.empty from hr]
    congr 1
    funext q
    split <;> rfl
  have hd : ∀ q, f.unsparse.destinations q Epsilon = ∅ := by
    intro q
    rw [hu]
    show ((f.tr q 257).getD ∅) = ∅
    rw [he]; rfl
  have hel : elems ∅ = [] := by
    apply List.eq_nil_iff_forall_not_mem.2
    intro x hx
    exact absurd (mem_elems.1 hx) (by simp)
  have hinv : ∀ (l : List Nat) (inv : Nat → Finset Nat), l.foldl (fun inv q => Fsm.invInsert inv q (elems (f.unsparse.destinations q Epsilon))) inv = inv := by
    intro l
    induction l with
    | nil => intro inv; rfl
    | cons a l ih =>
      intro inv
      rw [List.foldl_cons, hd, hel, ih]
      rfl
  have hb : f.unsparse.buildInveps = fun _ => ∅ := by unfold Fsm.buildInveps; exact hinv _ _
  have hc : ∀ (l : List Nat), l.foldl Fsm.closeThru { fsm := f.unsparse, inveps := fun _ => ∅ } = { fsm := f.unsparse, inveps := fun _ => ∅ } := by
    intro l
    induction l with
    | nil => rfl
    | cons a l ih =>
      rw [List.foldl_cons]
      have : Fsm.closeThru { fsm := f.unsparse, inveps := fun _ => ∅ } a = { fsm := f.unsparse, inveps := fun _ => ∅ } := by
        unfold Fsm.closeThru
        simp only [hel]
        rfl
      rw [this, ih]
  have hm : ∀ (l : List Nat), l.foldl Fsm.mergeFrom f.unsparse = f.unsparse := by
    intro l
    induction l with
    | nil => rfl
    | cons a l ih =>
      rw [List.foldl_cons]
      have : Fsm.mergeFrom f.unsparse a = f.unsparse := by
        unfold Fsm.mergeFrom
        rw [hd, hel]; rfl
      rw [this, ih]
  unfold Fsm.removeEpsilons
  simp only [hb, hc, hm]
  rfl

namespace Count

open Fsm Counting

theorem stored_setOutput (f : Fsm) (q p v x y : Nat) : (Capture.setOutput f q p v).output x y = if x = q ∧ y = p then v else f.output x y := by
  unfold Fsm.output Capture.setOutput
  by_cases hx : x = q
  · subst hx
    simp only [Function.update_self, Option.bind_some]
    by_cases hy : y = p
    · subst hy; simp
    · rw [Function.update_of_ne hy]
      simp only [hy, and_false, if_false]
      cases f.outputs x <;> rfl
  · simp only [Function.update_of_ne hx]
    simp [hx]

/-- What is known of the square while it is being written. -/
structure Part (n : Nat) (P : Nat → Nat → Nat → Prop) (O : Nat → Nat → Nat → Prop) (g : Fsm) : Prop where
  wf : g.WF
  raw : g.Raw
  size : g.size = n
  initial : g.initial = 0
  nd : g.determined = false
  dst : ∀ q c p, p ∈ g.dst q c ↔ P q c p
  none : ∀ q, g.tr q 257 = none
  out : ∀ q p, O q p (g.output q p)

/-- `o` is the last of the nonzero values given by the calls in the list for `(q, p)`, or what was there before. -/
def Last (O : Nat → Nat → Nat → Prop) (S : Nat → Nat → Nat → Prop) (q p o : Nat) : Prop := (O q p o ∧ ∀ v, S q p v → v = 0) ∨ (S q p o ∧ o ≠ 0)

theorem part_connect {n : Nat} {P O : Nat → Nat → Nat → Prop} {g : Fsm} (h : Part n P O g) {f : Fsm} {states : List (Nat × Nat)} {x : (Nat × Nat) × Nat}
    {e : PClass} (hx : x.2 < n) (hn : states.idxOf (pairStep f x.1 e.rep).1 < n) (he : ∀ c ∈ e.members, IsLetter c) :
    Part n (fun q c p => P q c p ∨ (q = x.2 ∧ c ∈ e.members ∧ p = states.idxOf (pairStep f x.1 e.rep).1))
      (Last O fun q p v => q = x.2 ∧ p = states.idxOf (pairStep f x.1 e.rep).1 ∧ v = (pairStep f x.1 e.rep).2) (connectPair f states x g e) := by
  have h1 : ∀ (l : List Nat) (a b : Nat) (g : Fsm), l.foldl (fun sq c => sq.connect a b c) g = g.connectAll (l.map fun c => (a, b, c)) := by
    intro l a b
    induction l with
    | nil => intro g; rfl
    | cons c l ih => intro g; rw [List.foldl_cons, ih]; rfl
  unfold connectPair
  simp only [h1]
  generalize hk : states.idxOf (pairStep f x.1 e.rep).1 = k at *
  generalize (pairStep f x.1 e.rep).2 = v at *
  have hwf : (g.connectAll (e.members.map fun c => (x.2, k, c))).WF := by
    refine h.wf.connectAll ?_
    intro q p c hm
    simp only [List.mem_map, Prod.mk.injEq] at hm
    obtain ⟨c', hc', rfl, rfl, rfl⟩ := hm
    rw [h.size]
    exact ⟨hx, hn, (he _ hc').1⟩
  have hdst : ∀ q c p, p ∈ (g.connectAll (e.members.map fun c => (x.2, k, c))).dst q c ↔ P q c p ∨ (q = x.2 ∧ c ∈ e.members ∧ p = k) := by
    intro q c p
    rw [mem_dst_connectAll, h.dst]
    simp only [List.mem_map, Prod.mk.injEq]
    constructor
    · rintro (h | ⟨c', hc', rfl, rfl, rfl⟩)
      · exact .inl h
      · exact .inr ⟨rfl, hc', rfl⟩
    · rintro (h | ⟨rfl, hc', rfl⟩)
      · exact .inl h
      · exact .inr ⟨_, hc', rfl, rfl, rfl⟩
  have hnone : ∀ q, (g.connectAll (e.members.map fun c => (x.2, k, c))).tr q 257 = none := by
    intro q
    cases ht : (g.connectAll (e.members.map fun c => (x.2, k, c))).tr q 257 with
    | none => rfl
    | some T =>
      have h2 : ((g.connectAll (e.members.map fun c => (x.2, k, c))).tr q 257).isSome = true := by rw [ht]; rfl
      rw [tr_connectAll_isSome, h.none] at h2
      rcases h2 with h2 | ⟨y, hy⟩
      · cases h2
      · simp only [List.mem_map, Prod.mk.injEq] at hy
        obtain ⟨c', hc', -, -, rfl⟩ := hy
        exact absurd rfl (he _ hc').2
  have hout : ∀ q p, (g.connectAll (e.members.map fun c => (x.2, k, c))).output q p = g.output q p := by
    intro q p
    unfold Fsm.output
    rw [connectAll_outputs]
  generalize hg : g.connectAll (e.members.map fun c => (x.2, k, c)) = g' at *
  have e1 : g'.letters = g.letters := by rw [← hg]; exact connectAll_letters _ _
  have e2 : g'.size = g.size := by rw [← hg]; exact connectAll_size _ _
  have e3 : g'.initial = g.initial := by rw [← hg]; exact connectAll_initial _ _
  have e4 : g'.determined = g.determined := by rw [← hg]; simp
  by_cases hv : v = 0
  · subst hv
    rw [if_neg (by simp)]
    refine ⟨hwf, by unfold Raw; rw [e1]; exact h.raw, by rw [e2]; exact h.size, by rw [e3]; exact h.initial, by rw [e4]; exact h.nd, hdst, hnone, ?_⟩
    intro q p
    rw [hout]
    exact .inl ⟨h.out q p, fun v hv => hv.2.2⟩
  · rw [if_pos hv]
    refine ⟨?_, by unfold Raw; exact e1.trans h.raw, e2.trans h.size, e3.trans h.initial, e4.trans h.nd, hdst, hnone, ?_⟩
    · exact ⟨hwf.1, hwf.2, hwf.3, hwf.4, hwf.5⟩
    · intro q p
      rw [stored_setOutput, hout]
      split
      · rename_i hqp
        exact .inr ⟨⟨hqp.1, hqp.2, rfl⟩, hv⟩
      · rename_i hqp
        exact .inl ⟨h.out q p, fun v hv => absurd ⟨hv.1, hv.2.1⟩ hqp⟩

theorem Part.congr {n : Nat} {P P' O O' : Nat → Nat → Nat → Prop} {g : Fsm} (h : Part n P O g) (hP : ∀ q c p, P q c p ↔ P' q c p)
    (hO : ∀ q p v, O q p v → O' q p v) : Part n P' O' g :=
  ⟨h.wf, h.raw, h.size, h.initial, h.nd, fun q c p => (h.dst q c p).trans (hP q c p), h.none, fun q p => hO _ _ _ (h.out q p)⟩

theorem part_classes {n : Nat} {f : Fsm} {states : List (Nat × Nat)} {x : (Nat × Nat) × Nat} (hx : x.2 < n) (es : List PClass)
    (hes : ∀ e ∈ es, states.idxOf (pairStep f x.1 e.rep).1 < n ∧ ∀ c ∈ e.members, IsLetter c)
    {P O : Nat → Nat → Nat → Prop} {g : Fsm} (h : Part n P O g) :
    Part n (fun q c p => P q c p ∨ (q = x.2 ∧ ∃ e ∈ es, c ∈ e.members ∧ p = states.idxOf (pairStep f x.1 e.rep).1))
      (Last O fun q p v => q = x.2 ∧ ∃ e ∈ es, p = states.idxOf (pairStep f x.1 e.rep).1 ∧ v = (pairStep f x.1 e.rep).2)
      (es.foldl (connectPair f states x) g) := by
  induction es generalizing P O g with
  | nil =>
    refine h.congr (fun q c p => by simp) (fun q p v hv => .inl ⟨hv, ?_⟩)
    rintro _ ⟨_, _, h, _⟩
    cases h
  | cons e es ih =>
    rw [List.foldl_cons]
    have h1 := part_connect h (f := f) (states := states) hx (hes e (by simp)).1 (hes e (by simp)).2
    refine (ih (fun e' he' => hes e' (by simp [he'])) h1).congr ?_ ?_
    · intro q c p
      simp only [List.mem_cons, exists_eq_or_imp]
      constructor
      · rintro ((h | h) | h)
        · exact .inl h
        · exact .inr ⟨h.1, .inl h.2⟩
        · exact .inr ⟨h.1, .inr h.2⟩
      · rintro (h | ⟨h, h' | h'⟩)
        · exact .inl (.inl h)
        · exact .inl (.inr ⟨h, h'⟩)
        · exact .inr ⟨h, h'⟩
    · intro q p v hv
      unfold Last at *
      simp only [List.mem_cons, exists_eq_or_imp]
      rcases hv with ⟨⟨h1, h2⟩ | ⟨h1, h2⟩, h3⟩ | ⟨h1, h2⟩
      · left
        refine ⟨h1, ?_⟩
        rintro v ⟨h, h' | h'⟩
        · exact h2 v ⟨h, h'⟩
        · exact h3 v ⟨h, h'⟩
      · exact .inr ⟨⟨h1.1, .inl h1.2⟩, h2⟩
      · exact .inr ⟨⟨h1.1, .inr h1.2⟩, h2⟩

theorem part_pair {n : Nat} {f : Fsm} {states : List (Nat × Nat)} {x : (Nat × Nat) × Nat} (hx : x.2 < n)
    (hes : ∀ e ∈ f.letters.set, states.idxOf (pairStep f x.1 e.rep).1 < n ∧ ∀ c ∈ e.members, IsLetter c)
    {P O : Nat → Nat → Nat → Prop} {g : Fsm} (h : Part n P O g) :
    Part n (fun q c p => P q c p ∨ (q = x.2 ∧ ∃ e ∈ f.letters.set, c ∈ e.members ∧ p = states.idxOf (pairStep f x.1 e.rep).1))
      (Last O fun q p v => q = x.2 ∧ ∃ e ∈ f.letters.set, p = states.idxOf (pairStep f x.1 e.rep).1 ∧ v = (pairStep f x.1 e.rep).2)
      (fillPair f states g x) := by
  unfold fillPair
  refine part_classes hx _ hes ?_
  have h1 : Part n P O (if f.tag x.1.1 ≠ 0 then g.setTag x.2 (f.tag x.1.1) else g) := by
    split
    · exact ⟨⟨h.wf.1, h.wf.2, h.wf.3, h.wf.4, h.wf.5⟩, h.raw, h.size, h.initial, h.nd, h.dst, h.none, h.out⟩
    · exact h
  exact ⟨h1.wf.setFinal (by rw [h1.size]; exact hx), h1.raw, h1.size, h1.initial, h1.nd, h1.dst, h1.none, h1.out⟩

theorem part_all {n : Nat} {f : Fsm} {states : List (Nat × Nat)} (xs : List ((Nat × Nat) × Nat)) 
    (hxs : ∀ x ∈ xs, x.2 < n ∧ ∀ e ∈ f.letters.set, states.idxOf (pairStep f x.1 e.rep).1 < n ∧ ∀ c ∈ e.members, IsLetter c)
    {P O : Nat → Nat → Nat → Prop} {g : Fsm} (h : Part n P O g) :
    Part n (fun q c p => P q c p ∨ (∃ x ∈ xs, q = x.2 ∧ ∃ e ∈ f.letters.set, c ∈ e.members ∧ p = states.idxOf (pairStep f x.1 e.rep).1))
      (Last O fun q p v => ∃ x ∈ xs, q = x.2 ∧ ∃ e ∈ f.letters.set, p = states.idxOf (pairStep f x.1 e.rep).1 ∧ v = (pairStep f x.1 e.rep).2)
      (xs.foldl (fillPair f states) g) := by
  induction xs generalizing P O g with
  | nil =>
    refine h.congr (fun q c p => by simp) (fun q p v hv => .inl ⟨hv, ?_⟩)
    rintro _ ⟨_, h, _⟩
    cases h
  | cons x xs ih =>
    rw [List.foldl_cons]
    have h1 := part_pair (states := states) (hxs x (by simp)).1 (hxs x (by simp)).2 h
    refine (ih (fun x' hx' => hxs x' (by simp [hx'])) h1).congr ?_ ?_
    · intro q c p
      simp only [List.mem_cons, exists_eq_or_imp, or_assoc]
    · intro q p v hv
      unfold Last at *
      simp only [List.mem_cons, exists_eq_or_imp]
      rcases hv with ⟨⟨h1, h2⟩ | ⟨h1, h2⟩, h3⟩ | ⟨h1, h2⟩
      · left
        refine ⟨h1, ?_⟩
        rintro v (h' | h')
        · exact h2 v h'
        · exact h3 v h'
      · exact .inr ⟨.inl h1, h2⟩
      · exact .inr ⟨.inr h1, h2⟩

/-- The square: its states are the pairs in `states`. -/
structure SquareSpec (f : Fsm) (states : List (Nat × Nat)) (g : Fsm) : Prop where
  wf : g.WF
  raw : g.Raw
  size : g.size = states.length
  initial : g.initial = 0
  nd : g.determined = false
  none : ∀ q, g.tr q 257 = none
  zero : states[0]? = some (f.initial, f.initial)
  lt : ∀ s ∈ states, s.1 < f.size ∧ s.2 < f.size
  next : ∀ s ∈ states, ∀ c, IsLetter c → (pairStep f s c).1 ∈ states
  nodup : states.Nodup
  edge : ∀ (k : Nat) s c p, states[k]? = some s → IsLetter c → (g.Edge k c p ↔ states[p]? = some (pairStep f s c).1)
  out : ∀ (k l : Nat) s c, states[k]? = some s → IsLetter c → states[l]? = some (pairStep f s c).1 →
    (∃ c', IsLetter c' ∧ (pairStep f s c').1 = (pairStep f s c).1 ∧ g.output k l = (pairStep f s c').2) ∧ (g.output k l = 0 → (pairStep f s c).2 = 0)

theorem pairStep_lt {re sep : Language Nat} {f : Fsm} (h : MainSpec re sep f) {s : Nat × Nat} (hs : s.1 < f.size ∧ s.2 < f.size) {c : Nat} (hc : IsLetter c) :
    (pairStep f s c).1.1 < f.size ∧ (pairStep f s c).1.2 < f.size := by
  rw [pairStep_eq]
  have h1 := h.go_lt s.1 hs.1 c hc
  have h2 := h.go_lt s.2 hs.2 c hc
  have h3 := h.initial_lt
  simp only
  constructor
  · split
    · exact h2
    · exact h1
  · generalize (if go f s.1 c ∈ f.deadStates then go f s.2 c else go f s.1 c) = m
    split
    · exact h3
    · exact h2

theorem pairStep_class {re sep : Language Nat} {f : Fsm} (h : MainSpec re sep f) {s : Nat × Nat} (hs : s.1 < f.size ∧ s.2 < f.size) {e : PClass}
    (he : e ∈ f.letters.set) {c : Nat} (hc : c ∈ e.members) : pairStep f s c = pairStep f s e.rep := by
  rw [pairStep_eq, pairStep_eq, h.go_class _ hs.1 e he c hc, h.go_class _ hs.2 e he c hc]

theorem square_spec {re sep : Language Nat} {f : Fsm} (h : MainSpec re sep f) : ∃ states, SquareSpec f states (square f) := by
  have hl : ∀ e ∈ f.letters.set, ∀ c ∈ e.members, IsLetter c := fun e he c hc =>
    (h.all c).1 (by rw [h.wf.let_wf.inv_of_mem he hc]; rfl)
  have hrep : ∀ e ∈ f.letters.set, IsLetter e.rep := fun e he => hl e he _ (h.wf.let_wf.rep_mem e he)
  have hcls : ∀ c, IsLetter c → ∃ e ∈ f.letters.set, c ∈ e.members := by
    intro c hc
    obtain ⟨r, hr⟩ := Option.isSome_iff_exists.1 ((h.all c).2 hc)
    obtain ⟨e, he, -, hm⟩ := (h.wf.let_wf.inv_iff _ _).1 hr
    exact ⟨e, he, hm⟩
  have hreach : ∀ s, (pairTask f).Reach s → s.1 < f.size ∧ s.2 < f.size := by
    intro s hs
    induction hs with
    | init => exact ⟨h.initial_lt, h.initial_lt⟩
    | step _ _ he ih => exact pairStep_lt h ih (hrep _ he)
  obtain ⟨r1, r2⟩ := DTask.run_spec (t := pairTask f) h.wf.let_wf (f.size * f.size)
  cases hrun : (pairTask f).run (f.size * f.size) with
  | none =>
    obtain ⟨l, h1, h2, h3⟩ := r2.1 hrun
    have hsub : l.toFinset ⊆ Finset.range f.size ×ˢ Finset.range f.size := by
      intro s hs
      have := hreach s (h2 s (List.mem_toFinset.1 hs))
      simp [this]
    have := Finset.card_le_card hsub
    rw [List.toFinset_card_of_nodup h1, h3, Finset.card_product, Finset.card_range] at this
    omega
  | some r =>
    obtain ⟨states, conns⟩ := r
    have hR := r1 states conns hrun
    have hlt : ∀ s ∈ states, s.1 < f.size ∧ s.2 < f.size := fun s hs => hreach s ((hR.mem s).1 hs)
    have hnext : ∀ s ∈ states, ∀ c, IsLetter c → (pairStep f s c).1 ∈ states := by
      intro s hs c hc
      obtain ⟨e, he, hm⟩ := hcls c hc
      rw [pairStep_class h (hlt s hs) he hm]
      exact (hR.mem _).2 (.step (t := pairTask f) ((hR.mem s).1 hs) rfl he)
    have hidx : ∀ k s, states[k]? = some s → states.idxOf s = k := by
      intro k s hk
      obtain ⟨hk1, rfl⟩ := List.getElem?_eq_some_iff.1 hk
      exact hR.nodup.idxOf_getElem k hk1
    have hidx' : ∀ s ∈ states, ∀ k, k = states.idxOf s ↔ states[k]? = some s := by
      intro s hs k
      constructor
      · rintro rfl
        rw [List.getElem?_eq_getElem (List.idxOf_lt_length_iff.2 hs)]
        simp
      · intro hk; exact (hidx k s hk).symm
    have h0lt : 0 < states.length := (List.getElem?_eq_some_iff.1 hR.zero).1
    have hstart : Part states.length (fun _ _ _ => False) (fun _ _ o => o = 0) (Fsm.init.resize states.length) := by
      refine ⟨WF.init.resize h0lt, rfl, rfl, rfl, rfl, ?_, ?_, ?_⟩
      · intro q c p; simp [Fsm.dst, Fsm.init, Fsm.resize]
      · intro q; simp [Fsm.init, Fsm.resize]
      · intro q p; rfl
    have hz : ∀ (x : (Nat × Nat) × Nat), x ∈ states.zipIdx ↔ states[x.2]? = some x.1 := by
      intro x; exact List.mem_zipIdx_iff_getElem?
    have hfin := part_all (f := f) (states := states) states.zipIdx (by
      intro x hx
      have hx' := (hz x).1 hx
      refine ⟨(List.getElem?_eq_some_iff.1 hx').1, fun e he => ⟨?_, hl e he⟩⟩
      exact List.idxOf_lt_length_iff.2 (hnext _ (List.mem_of_getElem? hx') _ (hrep e he))) hstart
    have hsq : square f = states.zipIdx.foldl (fillPair f states) (Fsm.init.resize states.length) := by
      unfold square; rw [hrun]
    rw [hsq]
    refine ⟨states, hfin.wf, hfin.raw, hfin.size, hfin.initial, hfin.nd, hfin.none, hR.zero, hlt, hnext, hR.nodup, ?_, ?_⟩
    · intro k s c p hk hc
      have hs := List.mem_of_getElem? hk
      rw [edge_iff, key_raw hfin.raw, hfin.dst, false_or, ← hidx' _ (hnext s hs c hc)]
      constructor
      · rintro ⟨x, hx, rfl, e, he, hm, rfl⟩
        rw [hz, hk] at hx
        cases hx
        rw [pairStep_class h (hlt _ hs) he hm]
      · rintro rfl
        obtain ⟨e, he, hm⟩ := hcls c hc
        exact ⟨(s, k), (hz _).2 hk, rfl, e, he, hm, by rw [pairStep_class h (hlt _ hs) he hm]⟩
    · intro k l s c hk hc hl'
      have hs := List.mem_of_getElem? hk
      obtain ⟨e, he, hm⟩ := hcls c hc
      have hpc := pairStep_class h (hlt _ hs) he hm
      rcases hfin.out k l with ⟨h1, h2⟩ | ⟨⟨x, hx, rfl, e', he', rfl, h1⟩, h2⟩
      · have h3 : (pairStep f s c).2 = 0 := by
          refine h2 _ ⟨(s, k), (hz _).2 hk, rfl, e, he, ?_, by rw [hpc]⟩
          rw [← hpc]
          exact (hidx l _ hl').symm
        refine ⟨⟨c, hc, rfl, ?_⟩, fun _ => h3⟩
        rw [h1, h3]
      · rw [hz, hk] at hx
        cases hx
        refine ⟨⟨e'.rep, hrep e' he', ?_, h1⟩, fun h => absurd h h2⟩
        have h4 := hnext _ hs _ (hrep e' he')
        have h5 := (hidx' _ h4 _).1 rfl
        rw [hl'] at h5
        exact (Option.some.inj h5).symm

end Count
end Pire
