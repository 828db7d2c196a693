import Verif.Proofs.GreedyStep
import Verif.Proofs.HalfFinalScanner

/-!
# Greedy counters: the doubled automaton
-/

namespace Pire
open Fsm Spec HalfFinal HalfFinal.Greedy
namespace Greedy

theorem elems_empty : elems ∅ = [] := by
  rw [List.eq_nil_iff_forall_not_mem]
  intro x hx
  rw [mem_elems] at hx
  simp at hx

theorem redirect_same (n q c : Nat) (f : Fsm) (d : Nat) : SameShape f (redirect n q c f d) := by
  unfold redirect
  simp only
  generalize (if c = EndMark then d % n + n else d % n) = d'
  split
  · exact (SameShape.disconnect ..).trans (SameShape.connect ..)
  · exact .refl _

theorem redirect_other {n q c : Nat} {f : Fsm} {d q' c' : Nat} (h : ¬ (q' = q ∧ c' = c)) : (redirect n q c f d).tr q' c' = f.tr q' c' := by
  unfold redirect
  simp only
  generalize (if c = EndMark then d % n + n else d % n) = d'
  split
  · show (if q' = q ∧ c' = c then _ else if q' = q ∧ c' = c then _ else f.tr q' c') = _
    rw [if_neg h, if_neg h]
  · rfl

theorem redirect_wf {n q c : Nat} {f : Fsm} {d : Nat} (h : f.WF) (hn : 0 < n) (hs : f.size = n + n) (hq : q < f.size) (hc : c < 264) :
    (redirect n q c f d).WF := by
  unfold HalfFinal.Greedy.redirect
  simp only
  obtain ⟨d', hd'⟩ : ∃ d', d' = (if c = EndMark then d % n + n else d % n) := ⟨_, rfl⟩
  have hlt : d' < f.size := by
    have := Nat.mod_lt d hn
    rw [hd', hs]; split <;> omega
  rw [← hd']
  split
  · exact (h.disconnect q d c).connect hq hlt hc
  · exact h

theorem redirectState_same (n : Nat) (f : Fsm) (q : Nat) : SameShape f (redirectState n f q) := by
  unfold redirectState
  simp only
  have h : ∀ (l : List Nat) (g : Fsm), SameShape g (l.foldl (fun f c => (elems (f.destinations q c)).foldl (redirect n q c) f) g) :=
    fun l g => SameShape.foldl (fun f c => SameShape.foldl (fun f d => redirect_same n q c f d) _ f) l g
  split
  · exact (h _ f).trans (SameShape.connect ..)
  · exact h _ f

/-- Only the row of `q` changes. -/
theorem redirectState_other {n : Nat} {f : Fsm} {q q' c' : Nat} (h : q' ≠ q) : (redirectState n f q).tr q' c' = f.tr q' c' := by
  unfold redirectState
  simp only
  have h1 : ∀ (c : Nat) (l : List Nat) (g : Fsm), (l.foldl (redirect n q c) g).tr q' c' = g.tr q' c' := by
    intro c l
    induction l with
    | nil => intro g; rfl
    | cons d l ih => intro g; rw [List.foldl_cons, ih, redirect_other fun h' => h h'.1]
  have h2 : ∀ (l : List Nat) (g : Fsm), (l.foldl (fun f c => (elems (f.destinations q c)).foldl (redirect n q c) f) g).tr q' c' = g.tr q' c' := by
    intro l
    induction l with
    | nil => intro g; rfl
    | cons d l ih => intro g; rw [List.foldl_cons, ih, h1]
  split
  · show (if q' = q ∧ c' = EndMark then _ else Fsm.tr _ q' c') = _
    rw [if_neg fun h' => h h'.1, h2]
  · exact h2 _ f

theorem redirectState_wf {n : Nat} {f : Fsm} {q : Nat} (h : f.WF) (hn : 0 < n) (hs : f.size = n + n) (hi : f.initial < n) (hq : q < f.size) :
    (redirectState n f q).WF := by
  unfold HalfFinal.Greedy.redirectState
  simp only
  have h1 : ∀ (c : Nat) (l : List Nat) (g : Fsm), c < 264 → g.WF → SameShape f g → (l.foldl (redirect n q c) g).WF := by
    intro c l
    induction l with
    | nil => intro g _ hg _; exact hg
    | cons d l ih =>
      intro g hc hg hsh
      rw [List.foldl_cons]
      exact ih _ hc (redirect_wf hg hn (by rw [hsh.size, hs]) (by rw [hsh.size]; exact hq) hc) (hsh.trans (redirect_same ..))
  have h2 : ∀ (l : List Nat) (g : Fsm), (∀ c ∈ l, c < 264) → g.WF → SameShape f g →
      (l.foldl (fun f c => (elems (f.destinations q c)).foldl (redirect n q c) f) g).WF ∧
      SameShape f (l.foldl (fun f c => (elems (f.destinations q c)).foldl (redirect n q c) f) g) := by
    intro l
    induction l with
    | nil => intro g _ hg hsh; exact ⟨hg, hsh⟩
    | cons d l ih =>
      intro g hc hg hsh
      rw [List.foldl_cons]
      exact ih _ (fun c hc' => hc c (List.mem_cons_of_mem _ hc')) (h1 d _ g (hc d List.mem_cons_self) hg hsh)
        (hsh.trans (SameShape.foldl (fun f d' => redirect_same n q d f d') _ g))
  obtain ⟨k1, k2⟩ := h2 (List.range MaxChar) f (fun c hc => List.mem_range.1 hc) h (.refl f)
  split
  · refine k1.connect (by rw [k2.size]; exact hq) ?_ (by decide)
    rw [k2.size, k2.initial, hs]; omega
  · exact k1

/-- A row with at most one target for every letter. -/
def OneRow (n : Nat) (f : Fsm) (q : Nat) : Prop := ∀ c, f.dst q c = ∅ ∨ ∃ d < n, f.dst q c = {d}

theorem redirect_end {n q d : Nat} {f : Fsm} (hd : d < n) (hdst : f.dst q EndMark = {d}) : (redirect n q EndMark f d).dst q EndMark = {d + n} := by
  unfold redirect
  simp only [if_true]
  rw [Nat.mod_eq_of_lt hd, if_pos (by omega)]
  have h1 : (f.disconnect q d EndMark).dst q EndMark = ∅ := by
    rw [disconnect_dst, if_pos ⟨rfl, rfl⟩, hdst]; simp
  show ((if q = q ∧ EndMark = EndMark then some (insert (d + n) ((f.disconnect q d EndMark).dst q EndMark)) else _)).getD ∅ = _
  rw [if_pos ⟨rfl, rfl⟩, h1]
  rfl

theorem redirect_keep {n q c d : Nat} {f : Fsm} (hd : d < n) (hc : c ≠ EndMark) : redirect n q c f d = f := by
  unfold redirect
  simp only [if_neg hc]
  rw [Nat.mod_eq_of_lt hd, if_neg (by simp)]

theorem redirectRow {n q : Nat} (cs : List Nat) (hnd : cs.Nodup) (f : Fsm) (hs : f.sparsed = false) (h1 : OneRow n f q) :
    ∀ c, (cs.foldl (fun f c => (elems (f.destinations q c)).foldl (redirect n q c) f) f).dst q c =
      if c = EndMark ∧ EndMark ∈ cs then (f.dst q EndMark).image (· + n) else f.dst q c := by
  have quiet : ∀ (cs : List Nat) (f : Fsm), f.sparsed = false → (∀ c ∈ cs, c ≠ EndMark ∧ (f.dst q c = ∅ ∨ ∃ d < n, f.dst q c = {d})) →
      cs.foldl (fun f c => (elems (f.destinations q c)).foldl (redirect n q c) f) f = f := by
    intro cs
    induction cs with
    | nil => intro f _ _; rfl
    | cons a cs ih =>
      intro f hs h
      obtain ⟨ha, h2⟩ := h a List.mem_cons_self
      have : (elems (f.destinations q a)).foldl (redirect n q a) f = f := by
        rw [destinations_unsparsed hs]
        rcases h2 with h2 | ⟨d, hd, h2⟩
        · rw [h2, elems_empty]; rfl
        · rw [h2, HalfFinal.elems_singleton, List.foldl_cons, List.foldl_nil, redirect_keep hd ha]
      rw [List.foldl_cons, this]
      exact ih f hs fun c hc => h c (List.mem_cons_of_mem _ hc)
  by_cases hE : EndMark ∈ cs
  · obtain ⟨a, b, rfl⟩ := List.append_of_mem hE
    rw [List.nodup_append, List.nodup_cons] at hnd
    have ha : ∀ c ∈ a, c ≠ EndMark := fun c hc => hnd.2.2 c hc EndMark List.mem_cons_self
    have hb : ∀ c ∈ b, c ≠ EndMark := fun c hc e => hnd.2.1.1 (e ▸ hc)
    rw [List.foldl_append, quiet a f hs fun c hc => ⟨ha c hc, h1 c⟩, List.foldl_cons, destinations_unsparsed hs]
    obtain ⟨g, hg⟩ : ∃ g, g = (elems (f.dst q EndMark)).foldl (redirect n q EndMark) f := ⟨_, rfl⟩
    have hgs : g.sparsed = false := by
      rw [hg, (SameShape.foldl (fun f d => redirect_same n q EndMark f d) _ f).sparsed, hs]
    have hgo : ∀ c, c ≠ EndMark → g.dst q c = f.dst q c := by
      intro c hc
      have : ∀ (l : List Nat) (k : Fsm), (l.foldl (redirect n q EndMark) k).tr q c = k.tr q c := by
        intro l
        induction l with
        | nil => intro k; rfl
        | cons d l ih => intro k; rw [List.foldl_cons, ih, redirect_other fun h' => hc h'.2]
      rw [hg, dst, this]; rfl
    have hge : g.dst q EndMark = (f.dst q EndMark).image (· + n) := by
      rw [hg]
      rcases h1 EndMark with h2 | ⟨d, hd, h2⟩
      · rw [h2, elems_empty, List.foldl_nil, h2]; rfl
      · rw [h2, HalfFinal.elems_singleton, List.foldl_cons, List.foldl_nil, redirect_end hd h2, Finset.image_singleton]
    rw [← hg, quiet b g hgs fun c hc => ⟨hb c hc, by rw [hgo c (hb c hc)]; exact h1 c⟩]
    intro c
    by_cases hc : c = EndMark
    · rw [if_pos ⟨hc, hE⟩, hc, hge]
    · rw [if_neg fun h' => hc h'.1, hgo c hc]
  · rw [quiet cs f hs fun c hc => ⟨fun e => hE (e ▸ hc), h1 c⟩]
    intro c
    rw [if_neg fun h' => hE h'.2]

theorem redirectState_row {n q : Nat} {f : Fsm} (hs : f.sparsed = false) (h1 : OneRow n f q) :
    (∀ c, c ≠ EndMark → (redirectState n f q).dst q c = f.dst q c) ∧
    (redirectState n f q).dst q EndMark ≠ ∅ ∧ ∀ p ∈ (redirectState n f q).dst q EndMark, n ≤ p := by
  have hr := redirectRow (n := n) (q := q) (List.range MaxChar) List.nodup_range f hs h1
  have hE : EndMark ∈ List.range MaxChar := List.mem_range.2 (by decide)
  unfold redirectState
  simp only
  have hsh : SameShape f ((List.range MaxChar).foldl (fun f c => (elems (f.destinations q c)).foldl (redirect n q c) f) f) :=
    SameShape.foldl (fun f c => SameShape.foldl (fun f d => redirect_same n q c f d) _ f) _ f
  generalize (List.range MaxChar).foldl (fun f c => (elems (f.destinations q c)).foldl (redirect n q c) f) f = g at hr hsh
  rw [destinations_unsparsed (by rw [hsh.sparsed, hs])]
  have hge : g.dst q EndMark = (f.dst q EndMark).image (· + n) := by rw [hr, if_pos ⟨rfl, hE⟩]
  have hgo : ∀ c, c ≠ EndMark → g.dst q c = f.dst q c := fun c hc => by rw [hr, if_neg fun h' => hc h'.1]
  by_cases h0 : g.dst q EndMark = ∅
  · rw [if_pos h0]
    have hcon : ∀ c, (g.connect q (n + g.initial) EndMark).dst q c = if c = EndMark then {n + g.initial} else g.dst q c := by
      intro c
      show ((if q = q ∧ c = EndMark then some (insert (n + g.initial) (g.dst q EndMark)) else g.tr q c)).getD ∅ = _
      by_cases hc : c = EndMark
      · rw [if_pos ⟨rfl, hc⟩, if_pos hc, h0]; rfl
      · rw [if_neg fun h' => hc h'.2, if_neg hc]; rfl
    refine ⟨fun c hc => by rw [hcon, if_neg hc, hgo c hc], by rw [hcon, if_pos rfl]; simp, fun p hp => ?_⟩
    rw [hcon, if_pos rfl, Finset.mem_singleton] at hp
    omega
  · rw [if_neg h0]
    refine ⟨hgo, h0, fun p hp => ?_⟩
    rw [hge, Finset.mem_image] at hp
    obtain ⟨d, -, rfl⟩ := hp
    omega

set_option linter.constructorNameAsVariable false in
/-- All the rows. -/
theorem redirectAll {n : Nat} {f : Fsm} (hw : f.WF) (hn : 0 < n) (hsz : f.size = n + n) (hi : f.initial < n) (hs : f.sparsed = false)
    (h1 : ∀ q < n, OneRow n f q) (k : Nat) (hk : k ≤ f.size) :
    SameShape f ((List.range k).foldl (redirectState n) f) ∧ ((List.range k).foldl (redirectState n) f).WF ∧
    (∀ q c, k ≤ q → ((List.range k).foldl (redirectState n) f).tr q c = f.tr q c) ∧
    ∀ q < n, q < k → (∀ c, c ≠ EndMark → ((List.range k).foldl (redirectState n) f).dst q c = f.dst q c) ∧
      ((List.range k).foldl (redirectState n) f).dst q EndMark ≠ ∅ ∧ ∀ p ∈ ((List.range k).foldl (redirectState n) f).dst q EndMark, n ≤ p := by
  induction k with
  | zero => exact ⟨.refl f, hw, fun _ _ _ => rfl, fun q _ h => by omega⟩
  | succ k ih =>
    obtain ⟨i1, i2, i3, i4⟩ := ih (by omega)
    rw [List.range_succ, List.foldl_append, List.foldl_cons, List.foldl_nil]
    generalize (List.range k).foldl (redirectState n) f = g at i1 i2 i3 i4
    have hgs : g.sparsed = false := by rw [i1.sparsed, hs]
    refine ⟨i1.trans (redirectState_same ..), redirectState_wf i2 hn (by rw [i1.size, hsz]) (by rw [i1.initial]; exact hi) (by rw [i1.size]; omega),
      fun q c hq => by rw [redirectState_other (by omega), i3 q c (by omega)], fun q hq hqk => ?_⟩
    by_cases hqk' : q = k
    · subst hqk'
      have hrow : ∀ c, g.dst q c = f.dst q c := fun c => by unfold dst; rw [i3 q c (Nat.le_refl _)]
      obtain ⟨r1, r2, r3⟩ := redirectState_row (n := n) (q := q) hgs (fun c => by rw [hrow]; exact h1 q hq c)
      exact ⟨fun c hc => by rw [r1 c hc, hrow], r2, r3⟩
    · have hrow : ∀ c, (redirectState n g k).dst q c = g.dst q c := fun c => by unfold dst; rw [redirectState_other hqk']
      obtain ⟨r1, r2, r3⟩ := i4 q hq (by omega)
      exact ⟨fun c hc => by rw [hrow, r1 c hc], by rw [hrow]; exact r2, fun p hp => r3 p (by rwa [hrow] at hp)⟩

/-- What `doubled` makes of an automaton with at most one target per letter. -/
structure Doubled (f g : Fsm) : Prop where
  let_wf : g.letters.WF
  all : ∀ c, (g.letters.inv c).isSome = true ↔ IsLetter c
  initial : g.initial = f.initial
  finals : g.finals = f.finals
  edge : ∀ q < f.size, ∀ c, IsLetter c → c ≠ EndMark → ∀ p, p ∈ g.destinations q c ↔ f.Edge q c p
  atEnd : ∀ q < f.size, ∀ p ∈ g.destinations q EndMark, f.size ≤ p
  rep : ∀ c r, g.letters.inv c = some r → (∀ q, g.destinations q r = g.destinations q c) ∧ (r = EndMark ↔ c = EndMark)

theorem doubled_spec {f : Fsm} (hw : f.WF) (hc : f.Coh) (h1 : ∀ q c p p', f.Edge q c p → f.Edge q c p' → p = p') : Doubled f (doubled f) := by
  have hn : 0 < f.size := by have := hw.init_lt; omega
  obtain ⟨u, hu⟩ : ∃ u, u = (f.import_ f).unsparse := ⟨_, rfl⟩
  have huw : u.WF := by rw [hu]; exact (hw.import_ hc hw hc).unsparse
  have husz : u.size = f.size + f.size := by rw [hu]; rfl
  have hui : u.initial = f.initial := by rw [hu]; rfl
  have hus : u.sparsed = false := by rw [hu]; rfl
  have hudst : ∀ q < f.size, ∀ c p, p ∈ u.dst q c ↔ f.Edge q c p := by
    intro q hq c p
    rw [hu, unsparse_dst (hw.import_ hc hw hc)]
    show (f.import_ f).Edge q c p ↔ _
    rw [import_edge hw hc hw hc]
    constructor
    · rintro (h | h)
      · exact h
      · omega
    · exact Or.inl
  have hone : ∀ q < f.size, OneRow f.size u q := by
    intro q hq c
    by_cases h : u.dst q c = ∅
    · exact Or.inl h
    · obtain ⟨d, hd⟩ := Finset.nonempty_iff_ne_empty.2 h
      have he := (hudst q hq c d).1 hd
      refine Or.inr ⟨d, (hw.edge_lt he).2.2, Finset.ext fun x => ?_⟩
      rw [hudst q hq, Finset.mem_singleton]
      exact ⟨fun hx => h1 _ _ _ _ hx he, fun hx => hx ▸ he⟩
  obtain ⟨k1, k2, -, k4⟩ := redirectAll huw hn husz (by rw [hui]; exact hw.init_lt) hus hone u.size le_rfl
  have hg : doubled f = ((List.range u.size).foldl (redirectState f.size) u).sparse := by rw [hu]; rfl
  rw [hg]
  generalize (List.range u.size).foldl (redirectState f.size) u = g at k1 k2 k4
  obtain ⟨s1, s2, s3, -⟩ := sparse_letters k2 false
  have hall : ∀ c, (g.sparse.letters.inv c).isSome = true ↔ IsLetter c := fun c => by
    rw [s2]
    unfold IsLetter
    exact and_congr_right fun _ => ⟨fun h h' => (Bool.noConfusion (h h')), fun h h' => absurd h' h⟩
  have hdest : ∀ q c, IsLetter c → g.sparse.destinations q c = g.dst q c := by
    intro q c hcl
    obtain ⟨r, hr⟩ := Option.isSome_iff_exists.1 ((hall c).2 hcl)
    unfold destinations translate
    have : g.sparse.sparsed = true := rfl
    have hne : (c == Epsilon) = false := by rw [beq_eq_false_iff_ne]; exact hcl.2
    rw [this, hne]
    simp only [Bool.not_true, Bool.or_self, Bool.false_eq_true, if_false]
    show g.dst q (g.sparse.letters.representative c) = _
    rw [Partition.representative, hr]
    show g.dst q r = _
    unfold dst
    rw [s3 c r hr q]
  have hEl : IsLetter EndMark := by decide
  have hrl : ∀ c r, g.sparse.letters.inv c = some r → IsLetter c ∧ IsLetter r := by
    intro c r hr
    refine ⟨(hall c).1 (by rw [hr]; rfl), (hall r).1 ?_⟩
    rw [s1.inv_rep hr]; rfl
  refine ⟨s1, hall, (k1.initial.trans hui), ?_, ?_, ?_, ?_⟩
  · show g.finals = f.finals
    rw [k1.finals, hu]; rfl
  · intro q hq c hcl hcE p
    rw [hdest q c hcl, (k4 q hq (by omega)).1 c hcE, hudst q hq]
  · intro q hq p hp
    rw [hdest q _ hEl] at hp
    exact (k4 q hq (by omega)).2.2 p hp
  · intro c r hr
    obtain ⟨hcl, hrl'⟩ := hrl c r hr
    have heq : ∀ q, g.dst q r = g.dst q c := fun q => by unfold dst; rw [s3 c r hr q]
    refine ⟨fun q => by rw [hdest q r hrl', hdest q c hcl, heq], ?_⟩
    obtain ⟨e1, e2, e3⟩ := k4 f.initial hw.init_lt (by have := hw.init_lt; omega)
    obtain ⟨x, hx⟩ := Finset.nonempty_iff_ne_empty.2 e2
    have hsmall : ∀ c', c' ≠ EndMark → ∀ p ∈ g.dst f.initial c', p < f.size := by
      intro c' hc' p hp
      rw [e1 c' hc', hudst _ hw.init_lt] at hp
      exact (hw.edge_lt hp).2.2
    have hxge := e3 x hx
    constructor
    · intro hrE
      by_contra hcE
      have := hsmall c hcE x (by rw [← heq, hrE]; exact hx)
      omega
    · intro hcE
      by_contra hrE
      have := hsmall r hrE x (by rw [heq, hcE]; exact hx)
      omega

/-! ### The simulation -/

open Classical in
/-- The state in which a match that has read `x` is. -/
noncomputable def stOf (f : Fsm) (x : List Nat) : Option Nat := if h : ∃ q, Run f.Edge f.initial x q then some h.choose else none

theorem stOf_some {f : Fsm} {x : List Nat} {q : Nat} (h : stOf f x = some q) : Run f.Edge f.initial x q := by
  unfold stOf at h
  split at h
  · rename_i h'; cases h; exact h'.choose_spec
  · cases h

theorem stOf_eq {f : Fsm} (hu : ∀ x q p, Run f.Edge f.initial x q → Run f.Edge f.initial x p → q = p) {x : List Nat} {q : Nat} :
    stOf f x = some q ↔ Run f.Edge f.initial x q := by
  refine ⟨stOf_some, fun h => ?_⟩
  have h' : ∃ q, Run f.Edge f.initial x q := ⟨q, h⟩
  unfold stOf
  rw [dif_pos h', hu _ _ _ h h'.choose_spec]

theorem stOf_none {f : Fsm} {x : List Nat} : stOf f x = none ↔ ¬ ∃ q, Run f.Edge f.initial x q := by
  unfold stOf
  split <;> simp_all

theorem rde_mono (f : Fsm) : ∀ a c b, f.removeDeadEnds.Edge a c b → f.Edge a c b := fun a c b e => ((removeDeadEnds_edge f a c b).1 e).1

theorem rde_unique {f : Fsm} (h : f.Det) {q p p' : Nat} {x : List Nat} (h1 : Run f.removeDeadEnds.Edge q x p) (h2 : Run f.removeDeadEnds.Edge q x p') : p = p' :=
  h.run_unique (h1.mono (rde_mono f)) (h2.mono (rde_mono f))

/-- A state to which the pruned automaton comes is useful. -/
theorem rde_useful {f : Fsm} (h : f.Det) (hne : ∃ v, v ∈ f.Lang) {x : List Nat} {q : Nat} (hr : Run f.removeDeadEnds.Edge f.initial x q) :
    ∃ v, v ∈ f.LangFrom q := by
  rcases List.eq_nil_or_concat x with rfl | ⟨y, c, rfl⟩
  · have := rde_unique h hr (.refl _)
    subst this
    exact hne
  · rw [List.concat_eq_append] at hr
    obtain ⟨m, h1, h2⟩ := hr.split
    have hq : q ∉ f.deadStates := by
      cases h2 with
      | eps e _ => exact absurd (rde_mono f _ _ _ e) h.no_eps
      | step _ e h3 =>
        have := rde_unique h h3 (.refl _)
        subst this
        exact ((removeDeadEnds_edge f _ _ _).1 e).2.2
    by_contra hno
    refine hq ((mem_deadStates h.wf h.coh q).2 ⟨?_, Or.inr hno⟩)
    exact h.wf.run_lt (hr.mono (rde_mono f)) h.wf.init_lt

theorem rde_same {f : Fsm} (h : f.Det) {x v : List Nat} {q : Nat} (hr : Run f.removeDeadEnds.Edge f.initial x q) :
    x ++ v ∈ f.Lang ↔ v ∈ f.LangFrom q := by
  have hr' := hr.mono (rde_mono f)
  constructor
  · rintro ⟨p, hp, hw⟩
    obtain ⟨m, h1, h2⟩ := hw.split
    rw [h.run_unique h1 hr'] at h2
    exact ⟨p, hp, h2⟩
  · rintro ⟨p, hp, hw⟩
    exact ⟨p, hp, hr'.trans hw⟩

theorem sim_of {f g : Fsm} (h : f.Det) (hne : ∃ v, v ∈ f.Lang) (hD : Doubled f.removeDeadEnds g) : Sim g f.Lang (stOf f.removeDeadEnds) := by
  obtain ⟨k1, k2, k3, k4, -⟩ := removeDeadEnds_fields f
  have hu : ∀ x q p, Run f.removeDeadEnds.Edge f.removeDeadEnds.initial x q → Run f.removeDeadEnds.Edge f.removeDeadEnds.initial x p → q = p :=
    fun x q p => rde_unique h
  have eq : ∀ {x q}, stOf f.removeDeadEnds x = some q ↔ Run f.removeDeadEnds.Edge f.initial x q := fun {x q} => by
    rw [stOf_eq hu, k2]
  have lt : ∀ {x q}, Run f.removeDeadEnds.Edge f.initial x q → q < f.removeDeadEnds.size := fun hr => by
    rw [k1]; exact h.wf.run_lt (hr.mono (rde_mono f)) h.wf.init_lt
  have edge : ∀ {x q c p}, Run f.removeDeadEnds.Edge f.initial x q → (Run f.removeDeadEnds.Edge f.initial (x ++ [c]) p ∧ c ≠ 257 → f.removeDeadEnds.Edge q c p) := by
    intro x q c p hr ⟨hr', hc⟩
    obtain ⟨m, h1, h2⟩ := hr'.split
    rw [rde_unique h h1 hr] at h2
    cases h2 with
    | eps e _ => exact absurd (rde_mono f _ _ _ e) h.no_eps
    | step _ e h3 => rw [rde_unique h (.refl _) h3] at e; exact e
  constructor
  · rw [hD.initial, k2, eq]; exact .refl _
  · intro x q c hc hcE hx
    have hr := eq.1 hx
    have hd : ∀ p, p ∈ g.destinations q c ↔ f.removeDeadEnds.Edge q c p := hD.edge q (lt hr) c hc hcE
    cases hs : stOf f.removeDeadEnds (x ++ [c]) with
    | none =>
      have : g.destinations q c = ∅ := by
        rw [Finset.eq_empty_iff_forall_notMem]
        intro p hp
        refine stOf_none.1 hs ⟨p, ?_⟩
        rw [k2]
        exact hr.snoc hc.2 ((hd p).1 hp)
      rw [this, elems_empty]; rfl
    | some p =>
      have hp := edge hr ⟨eq.1 hs, hc.2⟩
      have : g.destinations q c = {p} := by
        ext p'
        rw [hd, Finset.mem_singleton]
        exact ⟨fun e => h.edge_unique (rde_mono f _ _ _ e) (rde_mono f _ _ _ hp), fun e => e ▸ hp⟩
      rw [this, HalfFinal.elems_singleton]; rfl
  · intro x q hx
    have hr := eq.1 hx
    have := rde_same h (v := []) hr
    rw [List.append_nil, h.nil_mem] at this
    rw [this, Fsm.isFinal, hD.finals, k3, decide_eq_true_iff]
  · intro x hx hm
    rw [← lang_removeDeadEnds h.wf h.coh] at hm
    obtain ⟨p, -, hp⟩ := hm
    exact stOf_none.1 hx ⟨p, hp⟩
  · intro x c hx
    rw [stOf_none] at hx ⊢
    rintro ⟨q, hq⟩
    obtain ⟨m, h1, -⟩ := hq.split
    exact hx ⟨m, h1⟩
  · intro x q hx
    obtain ⟨v, hv⟩ := rde_useful h hne (eq.1 hx)
    exact ⟨v, (rde_same h (eq.1 hx)).2 hv⟩
  · intro x y q v hx hy
    rw [rde_same h (eq.1 hx), rde_same h (eq.1 hy)]
  · intro x y q c hx hy
    have key : ∀ x y, stOf f.removeDeadEnds x = some q → stOf f.removeDeadEnds y = some q → ∀ p, stOf f.removeDeadEnds (x ++ [c]) = some p →
        stOf f.removeDeadEnds (y ++ [c]) = some p := by
      intro x y hx hy p hp
      obtain ⟨m, h1, h2⟩ := (eq.1 hp).split
      rw [rde_unique h h1 (eq.1 hx)] at h2
      exact eq.2 ((eq.1 hy).trans h2)
    cases hp : stOf f.removeDeadEnds (x ++ [c]) with
    | some p => exact (key x y hx hy p hp).symm
    | none =>
      cases hp' : stOf f.removeDeadEnds (y ++ [c]) with
      | none => rfl
      | some p => rw [key y x hy hx p hp'] at hp; cases hp
  · intro x q hx p hp
    have hge := hD.atEnd q (lt (eq.1 hx)) p (mem_elems.1 hp)
    rw [k1] at hge
    constructor
    · rw [Fsm.isFinal, hD.finals, k3, decide_eq_false_iff_not]
      intro hf
      have := h.wf.fin_lt p hf
      omega
    · rw [hD.initial, k2]
      have := h.wf.init_lt
      omega

end Greedy
end Pire
