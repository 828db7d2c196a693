import Verif.Model.Epsilon
import Verif.Proofs.FsmMore

/-! # Letter classes and epsilon removal -/

namespace Pire
namespace Fsm

open Spec

/-! ### Unsparse -/

theorem unsparseClass_apply (row : Nat → Option (Finset Nat)) (e : PClass) (hne : e.members ≠ []) (c : Nat) :
    unsparseClass row e c = if c = e.rep ∨ c ∈ e.members then some ((row e.rep).getD ∅) else row c := by
  have gen : ∀ (ms : List Nat) (row : Nat → Option (Finset Nat)),
      (ms.foldl (fun r j =>
        let v := (r e.rep).getD ∅
        Function.update (Function.update r e.rep (some v)) j (some v)) row) c =
      if ms ≠ [] ∧ (c = e.rep ∨ c ∈ ms) then some ((row e.rep).getD ∅) else row c := by
    intro ms
    induction ms with
    | nil => intro row; simp
    | cons j ms ih =>
      intro row
      rw [List.foldl_cons, ih]
      have hrep : (Function.update (Function.update row e.rep (some ((row e.rep).getD ∅))) j
          (some ((row e.rep).getD ∅)) e.rep) = some ((row e.rep).getD ∅) := by
        by_cases hj : e.rep = j
        · rw [hj]; simp
        · rw [Function.update_of_ne hj]; simp
      simp only [hrep, Option.getD_some, List.mem_cons, ne_eq, reduceCtorEq, not_false_eq_true, true_and]
      by_cases h1 : c = e.rep
      · subst h1
        simp only [true_or, and_true, if_true, hrep]
        split <;> rfl
      · by_cases h2 : c = j
        · subst h2
          simp [h1]
        · simp only [h1, h2, false_or, Function.update_of_ne h2, Function.update_of_ne h1]
          by_cases h3 : c ∈ ms
          · have : ms ≠ [] := by rintro rfl; cases h3
            simp [h3, this]
          · simp [h3]
  unfold unsparseClass
  rw [gen]
  simp [hne]

theorem unsparse_tr {f : Fsm} (h : f.WF) (q c : Nat) : f.unsparse.tr q c =
    if q < f.size then (match f.letters.inv c with | some r => some (f.dst q r) | none => f.tr q c) else none := by
  have hl := h.let_wf
  by_cases hq : q < f.size
  · simp only [unsparse, if_pos hq]
    have gen : ∀ (cs : List PClass) (row : Nat → Option (Finset Nat)), (∀ e ∈ cs, e.rep ∈ e.members) →
        (cs.Pairwise fun a b => ∀ c, c ∈ a.members → c ∉ b.members) →
        ((∀ e ∈ cs, c ∈ e.members → (cs.foldl unsparseClass row) c = some ((row e.rep).getD ∅)) ∧
         ((∀ e ∈ cs, c ∉ e.members) → (cs.foldl unsparseClass row) c = row c)) := by
      intro cs
      induction cs with
      | nil => intro row _ _; simp
      | cons e cs ih =>
        intro row hrep hdis
        rw [List.pairwise_cons] at hdis
        have hre := hrep e (by simp)
        have hne : e.members ≠ [] := by intro h0; rw [h0] at hre; cases hre
        have ih' := ih (unsparseClass row e) (fun e' he' => hrep e' (by simp [he'])) hdis.2
        constructor
        · intro e' he' hc
          rw [List.foldl_cons]
          rcases List.mem_cons.1 he' with rfl | he'
          · rw [ih'.2 (fun e'' he'' => hdis.1 e'' he'' c hc), unsparseClass_apply _ _ hne, if_pos (.inr hc)]
          · rw [ih'.1 e' he' hc, unsparseClass_apply _ _ hne, if_neg]
            have hr' := hrep e' (by simp [he'])
            rintro (h1 | h1)
            · rw [h1] at hr'; exact hdis.1 e' he' _ hre hr'
            · exact hdis.1 e' he' _ h1 hr'
        · intro hall
          rw [List.foldl_cons, ih'.2 (fun e' he' => hall e' (by simp [he'])), unsparseClass_apply _ _ hne, if_neg]
          rintro (rfl | h1)
          · exact hall e (by simp) hre
          · exact hall e (by simp) h1
    have hdis : f.letters.set.Pairwise fun a b => ∀ c, c ∈ a.members → c ∉ b.members := by
      refine hl.sorted.imp_of_mem ?_
      intro a b ha hb hab c hca hcb
      have := hl.class_unique' ha hb hca hcb
      subst this; exact lt_irrefl _ hab
    obtain ⟨g1, g2⟩ := gen f.letters.set (f.tr q) hl.rep_mem hdis
    cases hc : f.letters.inv c with
    | none =>
      refine g2 ?_
      intro e he hm
      rw [hl.inv_of_mem he hm] at hc; cases hc
    | some r =>
      obtain ⟨e, he, rfl, hm⟩ := (hl.inv_iff _ _).1 hc
      exact g1 e he hm
  · simp only [unsparse, if_neg hq]
    exact h.tr_of_ge (by omega)

theorem unsparse_dst {f : Fsm} (h : f.WF) (q c : Nat) : f.unsparse.dst q c = f.eff q c := by
  rw [eff_eq, dst, unsparse_tr h, h.key_eq_repOr, Partition.repOr]
  by_cases hq : q < f.size
  · rw [if_pos hq]
    cases f.letters.inv c <;> rfl
  · rw [if_neg hq, h.dst_of_ge (by omega)]; rfl

theorem WF.unsparse {f : Fsm} (h : f.WF) : f.unsparse.WF := by
  refine ⟨h.init_lt, h.fin_lt, ?_, h.let_wf, h.let_lt⟩
  intro q c S hS
  rw [unsparse_tr h] at hS
  split at hS
  · rename_i hq
    cases hc : f.letters.inv c with
    | none => rw [hc] at hS; exact h.tr_lt q c S hS
    | some r =>
      rw [hc] at hS
      simp only [Option.some.injEq] at hS
      subst hS
      exact ⟨hq, (h.let_lt c r hc).1, fun p hp => (h.dst_lt hp).2.2⟩
  · cases hS

theorem unsparse_edge {f : Fsm} (h : f.WF) : f.unsparse.Edge = f.Edge := by
  funext q c p
  rw [eq_iff_iff, edge_iff, unsparse_dst h, eff_eq]
  have : f.key (f.unsparse.key c) = f.key c := by
    rw [key_congr (g := f.unsparse) (f := f) rfl]
    rw [h.key_eq_repOr, h.key_eq_repOr, h.let_wf.repOr_idem]
  rw [this, edge_iff]

/-! ### Sparse -/

theorem lettersEq_iff {f : Fsm} (h : f.WF) (a b : Nat) : f.lettersEq a b = true ↔ ∀ q, f.tr q a = f.tr q b := by
  unfold lettersEq
  simp only [List.all_eq_true, List.mem_range, decide_eq_true_eq]
  constructor
  · intro h1 q
    by_cases hq : q < f.size
    · exact h1 q hq
    · rw [h.tr_of_ge (by omega), h.tr_of_ge (by omega)]
  · intro h1 q _; exact h1 q

theorem mem_allLetters {b : Bool} {c : Nat} : c ∈ allLetters b ↔ c < 264 ∧ (c = 257 → b = true) := by
  unfold allLetters
  simp only [List.mem_filter, List.mem_range]
  cases b <;> simp

theorem allLetters_nodup (b : Bool) : (allLetters b).Nodup := by
  unfold allLetters
  exact List.nodup_range.filter _

theorem sparse_letters {f : Fsm} (h : f.WF) (b : Bool) :
    (f.sparse b).letters.WF ∧
    (∀ c, ((f.sparse b).letters.inv c).isSome = true ↔ c < 264 ∧ (c = 257 → b = true)) ∧
    (∀ c r, (f.sparse b).letters.inv c = some r → ∀ q, f.tr q r = f.tr q c) ∧
    (∀ e ∈ (f.sparse b).letters.set, ∀ e' ∈ (f.sparse b).letters.set, (∀ q, f.tr q e.rep = f.tr q e'.rep) →
      e.rep = e'.rep) := by
  have hnd := allLetters_nodup b
  have hw : (f.sparse b).letters.WF := Partition.WF.foldl_append Partition.WF.empty hnd (fun _ _ => rfl)
  have hc : (f.sparse b).letters.Classifies f.lettersEq :=
    Partition.Classifies.foldl_append Partition.WF.empty ⟨by simp [Partition.empty], by simp [Partition.empty]⟩ hnd
      (fun _ _ => rfl) (fun a => (lettersEq_iff h a a).2 fun _ => rfl)
      (fun a c hac => (lettersEq_iff h c a).2 fun q => ((lettersEq_iff h a c).1 hac q).symm)
  refine ⟨hw, ?_, ?_, ?_⟩
  · intro c
    unfold sparse
    simp only
    rw [Partition.inv_foldl_isSome]
    simp only [mem_allLetters, Partition.empty, Option.isSome_none, Bool.false_eq_true, or_false]
  · intro c r hr
    exact (lettersEq_iff h r c).1 (hc.1 c r hr)
  · intro e he e' he' hall
    exact hc.2 e he e' he' ((lettersEq_iff h _ _).2 hall)

theorem WF.sparse {f : Fsm} (h : f.WF) : f.sparse.WF := by
  obtain ⟨h1, h2, _, _⟩ := sparse_letters h false
  refine ⟨h.init_lt, h.fin_lt, h.tr_lt, h1, ?_⟩
  intro c r hc
  have := (h2 c).1 (by rw [hc]; rfl)
  exact ⟨this.1, fun h257 => by have := this.2 h257; cases this⟩

theorem sparse_edge {f : Fsm} (h : f.WF) (q c p : Nat) : f.sparse.Edge q c p ↔ p ∈ f.dst q c := by
  obtain ⟨h1, h2, h3, _⟩ := sparse_letters h false
  rw [edge_iff, h.sparse.key_eq_repOr]
  change p ∈ f.dst q _ ↔ _
  unfold Partition.repOr
  cases hc : f.sparse.letters.inv c with
  | none => rfl
  | some r =>
    simp only [Option.getD_some]
    rw [dst, dst, h3 c r hc q]

theorem Coh.sparse {f : Fsm} (h : f.WF) : f.sparse.Coh := by
  intro q c r hr
  exact .inr ((sparse_letters h false).2.2.1 c r hr q).symm

/-! ### The epsilon closure -/

theorem mem_invInsert (inv : Nat → Finset Nat) (q : Nat) (l : List Nat) (x y : Nat) :
    y ∈ invInsert inv q l x ↔ y ∈ inv x ∨ (x ∈ l ∧ y = q) := by
  unfold invInsert
  induction l generalizing inv with
  | nil => simp
  | cons a l ih =>
    rw [List.foldl_cons, ih]
    by_cases hx : x = a
    · subst hx; simp only [Function.update_self, Finset.mem_insert, List.mem_cons, true_or, true_and]; tauto
    · simp [Function.update_of_ne hx, hx]

theorem mem_buildInveps {f : Fsm} (h : f.WF) (x y : Nat) : y ∈ f.buildInveps x ↔ x ∈ f.dst y 257 := by
  have hd : ∀ q, f.destinations q Epsilon = f.dst q 257 := by
    intro q; simp [destinations, translate]
  have gen : ∀ (l : List Nat) (inv : Nat → Finset Nat),
      y ∈ l.foldl (fun inv q => invInsert inv q (elems (f.destinations q Epsilon))) inv x ↔
      y ∈ inv x ∨ (y ∈ l ∧ x ∈ f.dst y 257) := by
    intro l
    induction l with
    | nil => simp
    | cons a l ih =>
      intro inv
      rw [List.foldl_cons, ih, mem_invInsert, mem_elems, hd, List.mem_cons]
      constructor
      · rintro ((h | ⟨h, rfl⟩) | h)
        · exact .inl h
        · exact .inr ⟨.inl rfl, h⟩
        · exact .inr ⟨.inr h.1, h.2⟩
      · rintro (h | ⟨rfl | h, h'⟩)
        · exact .inl (.inl h)
        · exact .inl (.inr ⟨h', rfl⟩)
        · exact .inr ⟨h, h'⟩
  unfold buildInveps
  rw [gen]
  simp only [Finset.notMem_empty, false_or, List.mem_range, and_iff_right_iff_imp]
  intro hx; exact (h.dst_lt hx).1

/-- Raw edges. -/
def REdge (f : Fsm) (q c p : Nat) : Prop := p ∈ f.dst q c

/-- What the closure loop maintains (`k` values of `thru` processed). -/
structure CInv (f : Fsm) (k : Nat) (st : REState) : Prop where
  wf : st.fsm.WF
  size : st.fsm.size = f.size
  initial : st.fsm.initial = f.initial
  finals : st.fsm.finals = f.finals
  letters : st.fsm.letters = f.letters
  other : ∀ q c, c ≠ 257 → st.fsm.tr q c = f.tr q c
  inv : ∀ x y, y ∈ st.inveps x ↔ x ∈ st.fsm.dst y 257
  old : ∀ q p, p ∈ f.dst q 257 → p ∈ st.fsm.dst q 257
  sound : ∀ q p, p ∈ st.fsm.dst q 257 → Run f.REdge q [] p
  trans : ∀ m < k, ∀ q x, m ∈ st.fsm.dst q 257 → x ∈ st.fsm.dst m 257 → x ∈ st.fsm.dst q 257

theorem shortCut_dst (st : REState) (q thru : Nat) (x c y : Nat) :
    y ∈ (shortCut st q thru).fsm.dst x c ↔ y ∈ st.fsm.dst x c ∨ (x = q ∧ c = 257 ∧ y ∈ st.fsm.dst thru 257) := by
  have : (shortCut st q thru).fsm.dst x c =
    (st.fsm.connectAll ((elems (st.fsm.destinations thru Epsilon)).map fun x => (q, x, Epsilon))).dst x c := rfl
  rw [this, mem_dst_connectAll]
  simp only [List.mem_map, Prod.mk.injEq, mem_elems, destinations, translate]
  constructor
  · rintro (h | ⟨a, ha, rfl, rfl, rfl⟩)
    · exact .inl h
    · exact .inr ⟨rfl, rfl, by simpa using ha⟩
  · rintro (h | ⟨rfl, rfl, h⟩)
    · exact .inl h
    · exact .inr ⟨y, by simpa using h, rfl, rfl, rfl⟩

theorem shortCut_inv (st : REState) (q thru : Nat) (x y : Nat) :
    y ∈ (shortCut st q thru).inveps x ↔ y ∈ st.inveps x ∨ (x ∈ st.fsm.dst thru 257 ∧ y = q) := by
  unfold shortCut
  simp only
  rw [mem_invInsert, mem_elems]
  simp [destinations, translate]

/-- The set the inner loop iterates over does not change: inserting the current element is the only effect. -/
theorem shortCut_inveps_self (st : REState) (q thru : Nat) (hq : q ∈ st.inveps thru) (y : Nat) :
    y ∈ (shortCut st q thru).inveps thru ↔ y ∈ st.inveps thru := by
  rw [shortCut_inv]
  constructor
  · rintro (h | ⟨_, rfl⟩)
    · exact h
    · exact hq
  · exact .inl

/-- The inner loop over a list of sources. -/
theorem closeThru_fold {f : Fsm} {k : Nat} (l : List Nat) {st0 st : REState} (h0 : CInv f k st0)
    (hl : ∀ q ∈ l, k ∈ st0.fsm.dst q 257) (L : Nat → Prop)
    (hE : ∀ x y, y ∈ st.fsm.dst x 257 ↔ y ∈ st0.fsm.dst x 257 ∨ (L x ∧ x ≠ k ∧ y ∈ st0.fsm.dst k 257))
    (hwf : st.fsm.WF) (hs : st.fsm.size = f.size) (hi : st.fsm.initial = f.initial) (hfin : st.fsm.finals = f.finals)
    (hlet : st.fsm.letters = f.letters) (hoth : ∀ q c, c ≠ 257 → st.fsm.tr q c = f.tr q c)
    (hinv : ∀ x y, y ∈ st.inveps x ↔ x ∈ st.fsm.dst y 257) :
    let st' := l.foldl (fun st q => if q ≠ k then shortCut st q k else st) st
    (∀ x y, y ∈ st'.fsm.dst x 257 ↔ y ∈ st0.fsm.dst x 257 ∨ ((L x ∨ x ∈ l) ∧ x ≠ k ∧ y ∈ st0.fsm.dst k 257)) ∧
    st'.fsm.WF ∧ st'.fsm.size = f.size ∧ st'.fsm.initial = f.initial ∧ st'.fsm.finals = f.finals ∧
    st'.fsm.letters = f.letters ∧ (∀ q c, c ≠ 257 → st'.fsm.tr q c = f.tr q c) ∧
    (∀ x y, y ∈ st'.inveps x ↔ x ∈ st'.fsm.dst y 257) := by
  induction l generalizing st L with
  | nil => simp only [List.foldl_nil, List.not_mem_nil, or_false]; exact ⟨hE, hwf, hs, hi, hfin, hlet, hoth, hinv⟩
  | cons q l ih =>
    simp only [List.foldl_cons]
    have hkq := hl q (by simp)
    by_cases hq : q = k
    · rw [if_neg (by simpa using hq)]
      have := ih (fun x hx => hl x (by simp [hx])) L hE hwf hs hi hfin hlet hoth hinv
      refine ⟨?_, this.2⟩
      intro x y
      rw [this.1, List.mem_cons]
      constructor
      · rintro (h | ⟨h, h'⟩)
        · exact .inl h
        · exact .inr ⟨by tauto, h'⟩
      · rintro (h | ⟨h, h', h''⟩)
        · exact .inl h
        · refine .inr ⟨?_, h', h''⟩
          rcases h with h | rfl | h
          · exact .inl h
          · exact absurd hq h'
          · exact .inr h
    · rw [if_pos (by simpa using hq)]
      have hkk : ∀ y, y ∈ st.fsm.dst k 257 ↔ y ∈ st0.fsm.dst k 257 := by
        intro y; rw [hE]
        constructor
        · rintro (h | ⟨_, h, _⟩)
          · exact h
          · exact absurd rfl h
        · exact .inl
      have hlt := h0.wf.dst_lt hkq
      have hsz : st0.fsm.size = st.fsm.size := by rw [h0.size, hs]
      have := ih (fun x hx => hl x (by simp [hx])) (st := shortCut st q k) (fun x => L x ∨ x = q) ?_ ?_ ?_ ?_ ?_ ?_ ?_ ?_
      · refine ⟨?_, this.2⟩
        intro x y
        rw [this.1, List.mem_cons, or_assoc]
      · intro x y
        rw [shortCut_dst, hE, hkk]
        constructor
        · rintro ((h | h) | ⟨rfl, _, h⟩)
          · exact .inl h
          · exact .inr ⟨.inl h.1, h.2⟩
          · exact .inr ⟨.inr rfl, hq, h⟩
        · rintro (h | ⟨h | rfl, h', h''⟩)
          · exact .inl (.inl h)
          · exact .inl (.inr ⟨h, h', h''⟩)
          · exact .inr ⟨rfl, rfl, h''⟩
      · have hw := hwf.connectAll (l := (elems (st.fsm.destinations k Epsilon)).map fun x => (q, x, Epsilon)) (by
          intro a b c hm
          simp only [List.mem_map, Prod.mk.injEq, mem_elems, destinations, translate] at hm
          obtain ⟨x, hx, rfl, rfl, rfl⟩ := hm
          have hx' : x ∈ st.fsm.dst k 257 := by simpa using hx
          exact ⟨by rw [← hsz]; exact hlt.1, (hwf.dst_lt hx').2.2, by decide⟩)
        exact hw.congr rfl hw.init_lt hw.fin_lt rfl rfl
      · simpa [shortCut] using hs
      · simpa [shortCut] using hi
      · simpa [shortCut] using hfin
      · simpa [shortCut] using hlet
      · intro x c hc
        rw [← hoth x c hc]
        change (st.fsm.connectAll _).tr x c = _
        apply tr_connectAll_of_forall_ne
        intro t ht
        simp only [List.mem_map, Prod.mk.injEq] at ht
        obtain ⟨a, _, _, _, h⟩ := ht
        exact hc h.symm
      · intro x y
        rw [shortCut_inv, shortCut_dst, hinv]
        constructor
        · rintro (h | ⟨h, rfl⟩)
          · exact .inl h
          · exact .inr ⟨rfl, rfl, h⟩
        · rintro (h | ⟨rfl, _, h⟩)
          · exact .inl h
          · exact .inr ⟨h, rfl⟩

theorem CInv.step {f : Fsm} {k : Nat} {st : REState} (h : CInv f k st) : CInv f (k + 1) (closeThru st k) := by
  have hl : ∀ q ∈ elems (st.inveps k), k ∈ st.fsm.dst q 257 := by
    intro q hq; rw [mem_elems] at hq; exact (h.inv _ _).1 hq
  obtain ⟨hE, hwf, hs, hi, hfin, hlet, hoth, hinv⟩ := closeThru_fold (elems (st.inveps k)) h hl (fun _ => False)
    (by simp) h.wf h.size h.initial h.finals h.letters h.other h.inv
  have hE' : ∀ x y, y ∈ (closeThru st k).fsm.dst x 257 ↔
      y ∈ st.fsm.dst x 257 ∨ (k ∈ st.fsm.dst x 257 ∧ x ≠ k ∧ y ∈ st.fsm.dst k 257) := by
    intro x y
    unfold closeThru
    rw [hE, mem_elems, h.inv, false_or]
  refine ⟨hwf, hs, hi, hfin, hlet, hoth, hinv, ?_, ?_, ?_⟩
  · intro q p hp; rw [hE']; exact .inl (h.old q p hp)
  · intro q p hp
    rcases (hE' _ _).1 hp with hp | ⟨h1, _, h2⟩
    · exact h.sound q p hp
    · simpa using (h.sound _ _ h1).trans (h.sound _ _ h2)
  · intro m hm q x h1 h2
    -- shortcuts through k
    have viaK : ∀ {q x}, k ∈ st.fsm.dst q 257 → x ∈ st.fsm.dst k 257 → x ∈ (closeThru st k).fsm.dst q 257 := by
      intro q x h1 h2
      by_cases hq : q = k
      · rw [hE']; subst hq; exact .inl h2
      · rw [hE']; exact .inr ⟨h1, hq, h2⟩
    have hkrow : ∀ {x}, x ∈ (closeThru st k).fsm.dst k 257 → x ∈ st.fsm.dst k 257 := by
      intro x hx
      rcases (hE' _ _).1 hx with hx | ⟨_, hx, _⟩
      · exact hx
      · exact absurd rfl hx
    by_cases hmk : m = k
    · subst hmk
      have h2' := hkrow h2
      rcases (hE' _ _).1 h1 with h1 | ⟨h1, _, _⟩
      · exact viaK h1 h2'
      · exact viaK h1 h2'
    · have hm' : m < k := by omega
      rcases (hE' _ _).1 h1 with h1 | ⟨h1, _, h1'⟩ <;> rcases (hE' _ _).1 h2 with h2 | ⟨h2, _, h2'⟩
      · rw [hE']; exact .inl (h.trans m hm' q x h1 h2)
      · exact viaK (h.trans m hm' q k h1 h2) h2'
      · exact viaK h1 (h.trans m hm' k x h1' h2)
      · exact viaK h1 h2'

theorem closure_inv {f : Fsm} (h : f.WF) (k : Nat) :
    CInv f k ((List.range k).foldl closeThru { fsm := f, inveps := f.buildInveps }) := by
  induction k with
  | zero =>
    refine ⟨h, rfl, rfl, rfl, rfl, fun _ _ _ => rfl, fun x y => mem_buildInveps h x y, fun _ _ h => h, ?_, by simp⟩
    intro q p hp
    exact Run.oneEps hp
  | succ k ih =>
    rw [List.range_succ, List.foldl_append]
    exact ih.step

/-! ### Merging -/

/-- What merging maintains relative to the closed automaton `f`. -/
structure MInv (f g : Fsm) : Prop where
  wf : g.WF
  size : g.size = f.size
  initial : g.initial = f.initial
  letters : g.letters = f.letters
  eps : ∀ q, g.dst q 257 = f.dst q 257
  sound : ∀ q c p, p ∈ g.dst q c → c ≠ 257 → ∃ q', (q' = q ∨ q' ∈ f.dst q 257) ∧ p ∈ f.dst q' c
  grow : ∀ q c p, p ∈ f.dst q c → p ∈ g.dst q c
  fsound : ∀ q ∈ g.finals, ∃ q', (q' = q ∨ q' ∈ f.dst q 257) ∧ q' ∈ f.finals
  fgrow : ∀ q ∈ f.finals, q ∈ g.finals

theorem mergeEps_dst (f : Fsm) (q p x c y : Nat) :
    y ∈ (f.mergeEps q p).dst x c ↔ y ∈ f.dst x c ∨ (x = q ∧ y ∈ f.dst p c) := by
  unfold mergeEps
  simp only [dst]
  by_cases hx : x = q
  · subst hx
    simp only [if_true, true_and]
    cases hp : f.tr p c with
    | none => simp
    | some S => simp [dst]
  · simp [hx]

theorem mergeEps_finals (f : Fsm) (q p x : Nat) :
    x ∈ (f.mergeEps q p).finals ↔ x ∈ f.finals ∨ (x = q ∧ p ∈ f.finals) := by
  unfold mergeEps
  simp only
  split <;> simp_all
  tauto

theorem MInv.merge {f g : Fsm} (htr : ∀ m q x, m ∈ f.dst q 257 → x ∈ f.dst m 257 → x ∈ f.dst q 257) (h : MInv f g)
    {q p : Nat} (hp : p ∈ f.dst q 257) : MInv f (g.mergeEps q p) := by
  refine ⟨?_, h.size, h.initial, h.letters, ?_, ?_, ?_, ?_, ?_⟩
  · have hp' : p ∈ g.dst q 257 := by rw [h.eps]; exact hp
    have hlt := h.wf.dst_lt hp'
    refine ⟨h.wf.init_lt, ?_, ?_, h.wf.let_wf, h.wf.let_lt⟩
    · intro x hx
      rcases (mergeEps_finals _ _ _ _).1 hx with hx | ⟨rfl, _⟩
      · exact h.wf.fin_lt x hx
      · exact hlt.1
    · intro x c S hS
      unfold mergeEps at hS
      simp only at hS
      split at hS
      · rename_i hx
        split at hS
        · exact hx ▸ h.wf.tr_lt q c S hS
        · rename_i T hT
          simp only [Option.some.injEq] at hS
          subst hS
          have hT' := h.wf.tr_lt _ _ _ hT
          refine ⟨hx ▸ hlt.1, hT'.2.1, ?_⟩
          intro y hy
          rcases Finset.mem_union.1 hy with hy | hy
          · exact (h.wf.dst_lt hy).2.2
          · exact hT'.2.2 y hy
      · exact h.wf.tr_lt x c S hS
  · intro x
    ext y
    rw [mergeEps_dst, h.eps, h.eps]
    constructor
    · rintro (h1 | ⟨rfl, h1⟩)
      · exact h1
      · exact htr p x y hp h1
    · exact .inl
  · intro x c y hy hc
    rcases (mergeEps_dst _ _ _ _ _ _).1 hy with hy | ⟨rfl, hy2⟩
    · exact h.sound x c y hy hc
    · obtain ⟨q', hq', hy'⟩ := h.sound p c y hy2 hc
      refine ⟨q', .inr ?_, hy'⟩
      rcases hq' with rfl | hq'
      · exact hp
      · exact htr p x q' hp hq'
  · intro x c y hy
    rw [mergeEps_dst]; exact .inl (h.grow x c y hy)
  · intro x hx
    rcases (mergeEps_finals _ _ _ _).1 hx with hx | ⟨rfl, hx2⟩
    · exact h.fsound x hx
    · obtain ⟨q', hq', hy'⟩ := h.fsound p hx2
      refine ⟨q', .inr ?_, hy'⟩
      rcases hq' with rfl | hq'
      · exact hp
      · exact htr p x q' hp hq'
  · intro x hx
    rw [mergeEps_finals]; exact .inl (h.fgrow x hx)

theorem mergeFold {f : Fsm} (htr : ∀ m q x, m ∈ f.dst q 257 → x ∈ f.dst m 257 → x ∈ f.dst q 257) {q : Nat}
    (l : List Nat) (hl : ∀ p ∈ l, p ∈ f.dst q 257) {g : Fsm} (h : MInv f g) :
    let g' := l.foldl (fun g p => if p ≠ q then g.mergeEps q p else g) g
    MInv f g' ∧ (∀ x c y, y ∈ g.dst x c → y ∈ g'.dst x c) ∧ (∀ x ∈ g.finals, x ∈ g'.finals) ∧
    (∀ p ∈ l, (∀ c y, y ∈ f.dst p c → y ∈ g'.dst q c) ∧ (p ∈ f.finals → q ∈ g'.finals)) := by
  induction l generalizing g with
  | nil => exact ⟨h, fun _ _ _ h => h, fun _ h => h, by simp⟩
  | cons p l ih =>
    simp only [List.foldl_cons]
    by_cases hpq : p = q
    · rw [if_neg (by simpa using hpq)]
      obtain ⟨k1, k2, k3, k4⟩ := ih (fun x hx => hl x (by simp [hx])) h
      refine ⟨k1, k2, k3, ?_⟩
      intro x hx
      rcases List.mem_cons.1 hx with rfl | hx
      · subst hpq
        exact ⟨fun c y hy => k1.grow _ _ _ hy, fun hf => k1.fgrow _ hf⟩
      · exact k4 x hx
    · rw [if_pos (by simpa using hpq)]
      obtain ⟨k1, k2, k3, k4⟩ := ih (fun x hx => hl x (by simp [hx])) (h.merge htr (hl p (by simp)))
      refine ⟨k1, ?_, ?_, ?_⟩
      · intro x c y hy; apply k2; rw [mergeEps_dst]; exact .inl hy
      · intro x hx; apply k3; rw [mergeEps_finals]; exact .inl hx
      · intro x hx
        rcases List.mem_cons.1 hx with rfl | hx
        · constructor
          · intro c y hy; apply k2; rw [mergeEps_dst]; exact .inr ⟨rfl, h.grow _ _ _ hy⟩
          · intro hf; apply k3; rw [mergeEps_finals]; exact .inr ⟨rfl, h.fgrow _ hf⟩
        · exact k4 x hx

/-- The set iterated by the merge loop does not change during the loop. -/
theorem mergeFrom_eps {f g : Fsm} (htr : ∀ m q x, m ∈ f.dst q 257 → x ∈ f.dst m 257 → x ∈ f.dst q 257)
    (h : MInv f g) (q : Nat) (l : List Nat) (hl : ∀ p ∈ l, p ∈ f.dst q 257) :
    (l.foldl (fun g p => if p ≠ q then g.mergeEps q p else g) g).dst q 257 = g.dst q 257 := by
  rw [(mergeFold htr l hl h).1.eps, h.eps]

theorem merge_inv {f : Fsm} (hf : f.WF) (htr : ∀ m q x, m ∈ f.dst q 257 → x ∈ f.dst m 257 → x ∈ f.dst q 257)
    (k : Nat) : MInv f ((List.range k).foldl mergeFrom f) ∧
      ∀ q < k, ∀ p ∈ f.dst q 257, (∀ c y, y ∈ f.dst p c → y ∈ ((List.range k).foldl mergeFrom f).dst q c) ∧
        (p ∈ f.finals → q ∈ ((List.range k).foldl mergeFrom f).finals) := by
  induction k with
  | zero =>
    refine ⟨⟨hf, rfl, rfl, rfl, fun _ => rfl, fun q c p hp _ => ⟨q, .inl rfl, hp⟩, fun _ _ _ h => h,
      fun q hq => ⟨q, .inl rfl, hq⟩, fun _ h => h⟩, by simp⟩
  | succ k ih =>
    rw [List.range_succ, List.foldl_append]
    simp only [List.foldl_cons, List.foldl_nil]
    set g := (List.range k).foldl mergeFrom f with hg
    obtain ⟨h1, h2⟩ := ih
    have hd : g.destinations k Epsilon = f.dst k 257 := by
      rw [← h1.eps]; simp [destinations, translate]
    have := mergeFold htr (q := k) (elems (g.destinations k Epsilon)) (by
      intro p hp; rw [mem_elems, hd] at hp; exact hp) h1
    obtain ⟨k1, k2, k3, k4⟩ := this
    refine ⟨k1, ?_⟩
    intro q hq p hp
    by_cases hqk : q = k
    · subst hqk
      exact k4 p (by rw [mem_elems, hd]; exact hp)
    · obtain ⟨h3, h4⟩ := h2 q (by omega) p hp
      exact ⟨fun c y hy => k2 _ _ _ (h3 c y hy), fun hf => k3 _ (h4 hf)⟩

/-! ### RemoveEpsilons -/

theorem run_nil_redge {f : Fsm} {q p : Nat} :
    Run f.REdge q [] p ↔ Relation.ReflTransGen (fun a b => b ∈ f.dst a 257) q p := by
  constructor
  · intro h
    generalize hw : ([] : List Nat) = w at h
    induction h with
    | refl => exact .refl
    | eps e _ ih => exact .head e (ih hw)
    | step => cases hw
  · intro h
    induction h using Relation.ReflTransGen.head_induction_on with
    | refl => exact .refl _
    | head e _ ih => exact .eps e ih

/-- Everything later proofs need to know about `RemoveEpsilons`. -/
structure RESpec (f g : Fsm) : Prop where
  wf : g.WF
  size : g.size = f.size
  initial : g.initial = f.initial
  isAlt : g.isAlt = false
  sparsed : g.sparsed = true
  determined : g.determined = f.determined
  dst : ∀ q c p, p ∈ g.dst q c ↔ c ≠ 257 ∧ ∃ q', Run f.Edge q [] q' ∧ f.Edge q' c p
  noeps : ∀ q, g.tr q 257 = none
  finals : ∀ q, q ∈ g.finals ↔ ∃ q' ∈ f.finals, Run f.Edge q [] q'
  all : ∀ c, (g.letters.inv c).isSome = true ↔ c < 264 ∧ c ≠ 257
  same : ∀ c r, g.letters.inv c = some r → ∀ q, g.tr q r = g.tr q c
  exact : ∀ e ∈ g.letters.set, ∀ e' ∈ g.letters.set, (∀ q, g.tr q e.rep = g.tr q e'.rep) → e.rep = e'.rep

theorem foldl_closeThru_det (l : List Nat) (st : REState) :
    (l.foldl closeThru st).fsm.determined = st.fsm.determined := by
  have h2 : ∀ (l : List Nat) (k : Nat) (st : REState),
      (l.foldl (fun st q => if q ≠ k then shortCut st q k else st) st).fsm.determined = st.fsm.determined := by
    intro l k
    induction l with
    | nil => intro st; rfl
    | cons a l ih =>
      intro st
      rw [List.foldl_cons, ih]
      split
      · simp [shortCut]
      · rfl
  induction l generalizing st with
  | nil => rfl
  | cons a l ih => rw [List.foldl_cons, ih, closeThru, h2]

theorem foldl_mergeFrom_det (l : List Nat) (f : Fsm) :
    (l.foldl mergeFrom f).determined = f.determined := by
  have h2 : ∀ (l : List Nat) (k : Nat) (f : Fsm),
      (l.foldl (fun g p => if p ≠ k then g.mergeEps k p else g) f).determined = f.determined := by
    intro l k
    induction l with
    | nil => intro st; rfl
    | cons a l ih =>
      intro f
      rw [List.foldl_cons, ih]
      split
      · simp [mergeEps]
      · rfl
  induction l generalizing f with
  | nil => rfl
  | cons a l ih => rw [List.foldl_cons, ih, mergeFrom, h2]

theorem removeEpsilons_spec {f : Fsm} (h : f.WF) : RESpec f f.removeEpsilons := by
  set u := f.unsparse with hu
  have uw : u.WF := h.unsparse
  have uE : u.REdge = f.Edge := by
    funext q c p
    rw [eq_iff_iff, REdge, hu, unsparse_dst h]; rfl
  have hsz : u.size = f.size := rfl
  -- closure
  set st := (List.range u.size).foldl closeThru { fsm := u, inveps := u.buildInveps } with hst
  have hc : CInv u u.size st := closure_inv uw u.size
  set f1 := st.fsm with hf1
  have htr : ∀ m q x, m ∈ f1.dst q 257 → x ∈ f1.dst m 257 → x ∈ f1.dst q 257 := by
    intro m q x h1 h2
    have := (hc.wf.dst_lt h1).2.2
    rw [hc.size] at this
    exact hc.trans m this q x h1 h2
  have hstar : ∀ q p, (p = q ∨ p ∈ f1.dst q 257) ↔ Run f.Edge q [] p := by
    intro q p
    rw [← uE]
    constructor
    · rintro (rfl | hp)
      · exact .refl _
      · exact hc.sound q p hp
    · intro hr
      rw [run_nil_redge] at hr
      induction hr with
      | refl => exact .inl rfl
      | tail _ e ih =>
        right
        rcases ih with rfl | ih
        · exact hc.old _ _ e
        · exact htr _ _ _ ih (hc.old _ _ e)
  have hdst1 : ∀ q c p, c ≠ 257 → (p ∈ f1.dst q c ↔ f.Edge q c p) := by
    intro q c p hcne
    rw [← uE, REdge, Fsm.dst, hc.other q c hcne]; rfl
  -- merge
  obtain ⟨hm, hm2⟩ := merge_inv hc.wf htr u.size
  set g1 := (List.range u.size).foldl mergeFrom f1 with hg1
  -- drop
  have dw : g1.dropEps.WF := by
    refine ⟨hm.wf.init_lt, hm.wf.fin_lt, ?_, hm.wf.let_wf, hm.wf.let_lt⟩
    intro q c S hS
    unfold dropEps at hS
    simp only at hS
    split at hS
    · cases hS
    · exact hm.wf.tr_lt q c S hS
  have hsize : g1.size = f.size := by rw [hm.size, hc.size]; rfl
  obtain ⟨s1, s2, s3, s4⟩ := sparse_letters dw false
  have hg : f.removeEpsilons = g1.dropEps.sparse.clearHints := rfl
  have gw : f.removeEpsilons.WF := by
    rw [hg]; exact dw.sparse.congr rfl dw.sparse.init_lt dw.sparse.fin_lt rfl rfl
  rw [hg]
  refine ⟨by rw [← hg]; exact gw, hsize, by rw [← show u.initial = f.initial from rfl, ← hc.initial]; exact hm.initial, rfl, rfl, ?_, ?_, ?_, ?_, ?_, s3, s4⟩
  · change g1.determined = f.determined
    rw [hg1, foldl_mergeFrom_det, hf1, hst, foldl_closeThru_det]; rfl
  · intro q c p
    have hd : g1.dropEps.sparse.clearHints.dst q c = if c = 257 then ∅ else g1.dst q c := by
      change (g1.dropEps).dst q c = _
      unfold dropEps Fsm.dst
      by_cases hc257 : c = 257 <;> simp [hc257]
    rw [hd]
    by_cases hc257 : c = 257
    · simp [hc257]
    · rw [if_neg hc257]
      simp only [ne_eq, hc257, not_false_eq_true, true_and]
      constructor
      · intro hp
        obtain ⟨q', hq', hp'⟩ := hm.sound q c p hp hc257
        exact ⟨q', (hstar _ _).1 hq', (hdst1 _ _ _ hc257).1 hp'⟩
      · rintro ⟨q', hq', e⟩
        have e' := (hdst1 _ _ _ hc257).2 e
        rcases (hstar _ _).2 hq' with rfl | hq'
        · exact hm.grow _ _ _ e'
        · have := (hc.wf.dst_lt hq').1
          rw [hc.size] at this
          exact (hm2 q this q' hq').1 c p e'
  · intro q; rfl
  · intro q
    change q ∈ g1.finals ↔ _
    constructor
    · intro hq
      obtain ⟨q', hq', hf⟩ := hm.fsound q hq
      exact ⟨q', by rw [hc.finals] at hf; exact hf, (hstar _ _).1 hq'⟩
    · rintro ⟨q', hf, hr⟩
      have hf' : q' ∈ f1.finals := by rw [hc.finals]; exact hf
      rcases (hstar _ _).2 hr with rfl | hq'
      · exact hm.fgrow _ hf'
      · have := (hc.wf.dst_lt hq').1
        rw [hc.size] at this
        exact (hm2 q this q' hq').2 hf'
  · intro c
    have := s2 c
    rw [show g1.dropEps.sparse.clearHints.letters = (g1.dropEps.sparse false).letters from rfl, this]
    simp

theorem RESpec.edge {f g : Fsm} (h : RESpec f g) (q c p : Nat) :
    g.Edge q c p ↔ c ≠ 257 ∧ ∃ q', Run f.Edge q [] q' ∧ f.Edge q' c p := by
  rw [edge_iff, h.wf.key_eq_repOr, Partition.repOr, ← h.dst]
  cases hc : g.letters.inv c with
  | none => rfl
  | some r => simp only [Option.getD_some, Fsm.dst, h.same c r hc q]

theorem RESpec.coh {f g : Fsm} (h : RESpec f g) : g.Coh := by
  intro q c r hr; exact .inr (h.same c r hr q).symm

theorem RESpec.langFrom {f g : Fsm} (h : RESpec f g) (q : Nat) : g.LangFrom q = f.LangFrom q := by
  ext w
  rw [mem_langFrom, mem_langFrom]
  constructor
  · rintro ⟨p, hp, hr⟩
    obtain ⟨p', hp', hpp⟩ := (h.finals p).1 hp
    refine ⟨p', hp', ?_⟩
    have : Run f.Edge q w p := by
      clear hp hpp
      induction hr with
      | refl => exact .refl _
      | eps e _ _ => exact absurd rfl ((h.edge _ _ _).1 e).1
      | step hc e _ ih =>
        obtain ⟨_, q', h1, h2⟩ := (h.edge _ _ _).1 e
        exact h1.trans (.step hc h2 ih)
    simpa using this.trans hpp
  · rintro ⟨p, hp, hr⟩
    have key : ∀ {q w}, Run f.Edge q w p → ∃ r, (∃ p ∈ f.finals, Run f.Edge r [] p) ∧ Run g.Edge q w r := by
      intro q w hr
      induction w generalizing q with
      | nil => exact ⟨q, ⟨p, hp, hr⟩, .refl _⟩
      | cons c w ih =>
        obtain ⟨q1, q2, h1, hc, e, h2⟩ := hr.cons_inv
        obtain ⟨r, hr1, hr2⟩ := ih h2
        exact ⟨r, hr1, .step hc ((h.edge _ _ _).2 ⟨hc, q1, h1, e⟩) hr2⟩
    obtain ⟨r, hr1, hr2⟩ := key hr
    exact ⟨r, (h.finals r).2 hr1, hr2⟩

theorem lang_removeEpsilons {f : Fsm} (h : f.WF) : f.removeEpsilons.Lang = f.Lang := by
  have hs := removeEpsilons_spec h
  rw [Lang, Lang, hs.langFrom, hs.initial]

end Fsm
end Pire
