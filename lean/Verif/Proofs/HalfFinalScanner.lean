import Verif.Proofs.HalfFinalLang
import Verif.Proofs.HalfFinalCompile
import Verif.Proofs.HalfFinalCount
import Verif.Proofs.Algebra

/-!
# `MakeScanner`, `MakeNonGreedyCounter`
-/

namespace Pire
open Spec
namespace HalfFinal
open Fsm Multi

theorem det_delta {f : Fsm} (h : f.Det) : ∃ δ : Nat → Nat → Nat, ∀ q < f.size, ∀ c, IsLetter c → δ q c < f.size ∧ ∀ p, f.Edge q c p ↔ p = δ q c := by
  have : ∀ q c, ∃ x, q < f.size → IsLetter c → x < f.size ∧ ∀ p, f.Edge q c p ↔ p = x := by
    intro q c
    by_cases hq : q < f.size ∧ IsLetter c
    · obtain ⟨p, hp⟩ := h.exists_edge hq.1 hq.2
      exact ⟨p, fun _ _ => ⟨(h.wf.edge_lt hp).2.2, fun p' => ⟨fun e => h.edge_unique e hp, fun e => e ▸ hp⟩⟩⟩
    · exact ⟨0, fun h1 h2 => absurd ⟨h1, h2⟩ hq⟩
  choose δ hδ using this
  exact ⟨δ, fun q hq c hc => hδ q c hq hc⟩

/-! ### `MakeHalfFinal` -/

theorem halfFinalState_same (n : Nat) (f : Fsm) (q : Nat) : SameShape f (halfFinalState n f q) := by
  unfold halfFinalState
  split
  · exact (SameShape.foldl (fun f p => SameShape.disconnect f q p EndMark) _ f).trans (SameShape.connect ..)
  · exact .refl _

theorem elems_singleton (x : Nat) : elems {x} = [x] := by
  unfold elems
  simp only [Finset.sup_singleton, Finset.mem_singleton, id_eq]
  rw [List.range_succ, List.filter_append, List.filter_eq_nil_iff.2]
  · simp
  · intro a ha
    have := List.mem_range.1 ha
    simp; omega

theorem halfFinalState_tr {n : Nat} {f : Fsm} {q x : Nat} (hs : f.sparsed = false) (hx : f.tr q 259 = some {x}) (q' c' : Nat) :
    (halfFinalState n f q).tr q' c' = if q' = q ∧ c' = 259 ∧ x ∈ f.finals then some {n} else f.tr q' c' := by
  unfold halfFinalState
  rw [destinations_unsparsed hs]
  have hd : f.dst q EndMark = {x} := by unfold dst; rw [show EndMark = 259 from rfl, hx]; rfl
  rw [hd, elems_singleton]
  by_cases hf : x ∈ f.finals
  · rw [if_pos (by simp [isFinal, hf])]
    simp only [List.foldl_cons, List.foldl_nil]
    unfold connect
    simp only
    rw [show (f.disconnect q x EndMark).dst q EndMark = ∅ from by rw [disconnect_dst, if_pos ⟨rfl, rfl⟩, hd]; simp]
    by_cases hq : q' = q ∧ c' = 259
    · rw [if_pos (show q' = q ∧ c' = EndMark from hq), if_pos ⟨hq.1, hq.2, hf⟩]
      simp
    · rw [if_neg (show ¬ (q' = q ∧ c' = EndMark) from hq), if_neg (fun h => hq ⟨h.1, h.2.1⟩)]
      unfold disconnect
      simp only
      rw [if_neg (show ¬ (q' = q ∧ c' = EndMark) from hq)]
  · rw [if_neg (by simp [isFinal, hf]), if_neg (fun h => hf h.2.2)]

theorem halfFinalStates_tr {n : Nat} {f : Fsm} {δ : Nat → Nat} (hs : f.sparsed = false) (hx : ∀ q < f.size, f.tr q 259 = some {δ q}) (k : Nat) (hk : k ≤ f.size) :
    SameShape f ((List.range k).foldl (halfFinalState n) f) ∧
    ∀ q c, ((List.range k).foldl (halfFinalState n) f).tr q c = if q < k ∧ c = 259 ∧ δ q ∈ f.finals then some {n} else f.tr q c := by
  induction k with
  | zero => exact ⟨.refl f, fun q c => by simp⟩
  | succ k ih =>
    obtain ⟨h1, h2⟩ := ih (by omega)
    rw [List.range_succ, List.foldl_append, List.foldl_cons, List.foldl_nil]
    generalize (List.range k).foldl (halfFinalState n) f = g at h1 h2
    refine ⟨h1.trans (halfFinalState_same ..), fun q c => ?_⟩
    have hgx : g.tr k 259 = some {δ k} := by rw [h2, if_neg (by omega)]; exact hx k (by omega)
    rw [halfFinalState_tr (h1.sparsed.trans hs) hgx, h1.finals, h2]
    by_cases hq : q = k
    · subst hq
      by_cases h3 : c = 259 ∧ δ q ∈ f.finals
      · rw [if_pos ⟨rfl, h3⟩, if_pos ⟨by omega, h3⟩]
      · rw [if_neg (fun h => h3 h.2), if_neg (by omega), if_neg (fun h => h3 h.2)]
    · rw [if_neg (fun h => hq h.1)]
      by_cases h3 : q < k ∧ c = 259 ∧ δ q ∈ f.finals
      · rw [if_pos h3, if_pos ⟨by omega, h3.2⟩]
      · rw [if_neg h3, if_neg (fun h => h3 ⟨by omega, h.2⟩)]

theorem connectAll_determined (l : List (Nat × Nat × Nat)) (f : Fsm) : (f.connectAll l).determined = f.determined := by
  unfold connectAll
  induction l generalizing f with
  | nil => rfl
  | cons x l ih => rw [List.foldl_cons, ih]; rfl

theorem halfFinalState_determined (n : Nat) (f : Fsm) (q : Nat) : (halfFinalState n f q).determined = f.determined ∧ (halfFinalState n f q).tags = f.tags := by
  unfold halfFinalState
  split
  · have : ∀ (l : List Nat) (f : Fsm), (l.foldl (fun f p => f.disconnect q p EndMark) f).determined = f.determined ∧
        (l.foldl (fun f p => f.disconnect q p EndMark) f).tags = f.tags := by
      intro l
      induction l with
      | nil => intro f; exact ⟨rfl, rfl⟩
      | cons x l ih => intro f; rw [List.foldl_cons]; exact ih _
    exact this _ _
  · exact ⟨rfl, rfl⟩

theorem loopLetters_tr (n : Nat) (l : List Nat) (f : Fsm) (q c : Nat) (h : ∀ c ∈ l, f.dst n c ⊆ {n}) :
    (f.connectAll (l.map fun c => (n, n, c))).tr q c = if q = n ∧ c ∈ l then some {n} else f.tr q c := by
  unfold connectAll
  induction l generalizing f with
  | nil => simp
  | cons x l ih =>
    rw [List.map_cons, List.foldl_cons, ih]
    · by_cases h1 : q = n ∧ c ∈ l
      · rw [if_pos h1, if_pos ⟨h1.1, List.mem_cons_of_mem _ h1.2⟩]
      · rw [if_neg h1]
        unfold connect
        simp only
        by_cases h2 : q = n ∧ c = x
        · rw [if_pos h2, if_pos ⟨h2.1, by rw [h2.2]; exact List.mem_cons_self ..⟩]
          congr 1
          have := h x (List.mem_cons_self ..)
          exact Finset.insert_eq_of_mem (a := n) (s := {n}) (by simp) ▸ (by
            ext y
            simp only [Finset.mem_insert, Finset.mem_singleton]
            constructor
            · rintro (rfl | hy)
              · exact .inl rfl
              · exact .inl (Finset.mem_singleton.1 (this hy))
            · rintro (rfl | rfl) <;> exact .inl rfl)
        · rw [if_neg h2, if_neg]
          rintro ⟨a, b⟩
          rcases List.mem_cons.1 b with b | b
          · exact h2 ⟨a, b⟩
          · exact h1 ⟨a, b⟩
    · intro c' hc'
      have h1 := h c' (List.mem_cons_of_mem _ hc')
      have h2 := h x (List.mem_cons_self ..)
      intro y hy
      unfold dst connect at hy
      simp only at hy
      by_cases hcx : c' = x
      · subst hcx
        rw [if_pos (by simp), Option.getD_some, Finset.mem_insert] at hy
        rcases hy with rfl | hy
        · simp
        · exact h1 hy
      · rw [if_neg (fun h => hcx h.2)] at hy
        exact h1 hy

/-- `MakeHalfFinal` before its last line. -/
theorem makeHalfFinal_raw {f : Fsm} (h : f.Det) {δ : Nat → Nat → Nat}
    (hδ : ∀ q < f.size, ∀ c, IsLetter c → δ q c < f.size ∧ ∀ p, f.Edge q c p ↔ p = δ q c) :
    ∃ g : Fsm, makeHalfFinal f = g.sparse ∧ g.size = f.size + 1 ∧ g.initial = f.initial ∧ g.finals = {f.size} ∧ g.determined = true ∧
      g.tags = f.tags ∧ g.letters = f.letters ∧ ∀ q c, g.tr q c =
        if q ≤ f.size ∧ IsLetter c then some {if q = f.size then f.size else if c = 259 ∧ δ q 259 ∈ f.finals then f.size else δ q c} else none := by
  unfold makeHalfFinal
  simp only
  obtain ⟨f1, hf1⟩ : ∃ f1, f1 = (f.unsparse.resize (f.unsparse.size + 1)).connectAll
    (((List.range MaxChar).filter (· ≠ Epsilon)).map fun c => (f.unsparse.size, f.unsparse.size, c)) := ⟨_, rfl⟩
  rw [← hf1]
  have hsz : f.unsparse.size = f.size := rfl
  rw [hsz] at hf1 ⊢
  have hmem : ∀ c, c ∈ (List.range MaxChar).filter (· ≠ Epsilon) ↔ IsLetter c := by
    intro c
    rw [List.mem_filter, List.mem_range, decide_eq_true_eq]
    rfl
  have hsz1 : f1.size = f.size + 1 := by rw [hf1, connectAll_size]; rfl
  have hsp1 : f1.sparsed = false := by rw [hf1, connectAll_sparsed]; rfl
  have hfin1 : f1.finals = f.finals := by rw [hf1, connectAll_finals]; rfl
  have htr1 : ∀ q c, f1.tr q c = if q ≤ f.size ∧ IsLetter c then some {if q = f.size then f.size else δ q c} else none := by
    intro q c
    rw [hf1, loopLetters_tr]
    · simp only [hmem]
      by_cases hq : q = f.size
      · subst hq
        by_cases hc : IsLetter c
        · rw [if_pos ⟨rfl, hc⟩, if_pos ⟨le_rfl, hc⟩, if_pos rfl]
        · rw [if_neg (fun x => hc x.2), if_neg (fun x => hc x.2)]
          unfold resize; simp [hsz]
      · rw [if_neg (fun x => hq x.1)]
        unfold resize
        simp only [hsz]
        by_cases hq2 : q < f.size
        · rw [if_pos ⟨hq2, by omega⟩, unsparse_tr h.wf, if_pos hq2]
          by_cases hc : IsLetter c
          · rw [if_pos ⟨by omega, hc⟩, if_neg hq]
            obtain ⟨r, hr⟩ := Option.isSome_iff_exists.1 ((h.all c).2 hc)
            rw [hr]
            simp only
            congr 1
            ext p
            rw [Finset.mem_singleton, ← (hδ q hq2 c hc).2 p, edge_iff, h.wf.key_eq_repOr, Partition.repOr, hr]
            rfl
          · rw [if_neg (fun x => hc x.2)]
            have hn : f.letters.inv c = none := by
              cases hr : f.letters.inv c with
              | none => rfl
              | some r => exact absurd (h.wf.let_lt c r hr) hc
            rw [hn]
            simp only
            by_contra hne
            have := h.keys q c hne
            rw [hn] at this; cases this
        · rw [if_neg (fun x => hq2 x.1), if_neg (by omega)]
    · intro c _
      unfold dst resize
      simp [hsz]
  obtain ⟨a1, a2⟩ := halfFinalStates_tr (n := f.size) (f := f1) (δ := fun q => if q = f.size then f.size else δ q 259) hsp1
    (fun q hq => by rw [htr1, if_pos ⟨by omega, by decide⟩]) f1.size le_rfl
  have hdt : ∀ (l : List Nat) (g : Fsm), (l.foldl (halfFinalState f.size) g).determined = g.determined ∧ (l.foldl (halfFinalState f.size) g).tags = g.tags := by
    intro l
    induction l with
    | nil => intro g; exact ⟨rfl, rfl⟩
    | cons x l ih =>
      intro g
      rw [List.foldl_cons]
      exact ⟨(ih _).1.trans (halfFinalState_determined ..).1, (ih _).2.trans (halfFinalState_determined ..).2⟩
  obtain ⟨d1, d2⟩ := hdt (List.range f1.size) f1
  generalize (List.range f1.size).foldl (halfFinalState f.size) f1 = g at a1 a2 d1 d2
  refine ⟨_, rfl, a1.size.trans hsz1, ?_, rfl, ?_, ?_, ?_, fun q c => ?_⟩
  · refine a1.initial.trans ?_
    rw [hf1, connectAll_initial]; rfl
  · refine d1.trans ?_
    rw [hf1, connectAll_determined]; exact h.flag
  · refine d2.trans ?_
    rw [hf1, connectAll_tags]; rfl
  · refine a1.letters.trans ?_
    rw [hf1, connectAll_letters]; rfl
  · show g.tr q c = _
    rw [a2, htr1, hfin1, hsz1]
    have hn : f.size ∉ f.finals := fun hx => by have := h.wf.fin_lt _ hx; omega
    by_cases hq : q ≤ f.size ∧ IsLetter c
    · rw [if_pos hq, if_pos hq]
      by_cases h3 : q = f.size
      · simp only [if_pos h3]
        rw [if_neg (fun x => hn x.2.2)]
      · simp only [if_neg h3]
        by_cases h4 : c = 259 ∧ δ q 259 ∈ f.finals
        · rw [if_pos ⟨by omega, h4⟩, if_pos h4]
        · rw [if_neg (fun x => h4 x.2), if_neg h4]
    · rw [if_neg hq, if_neg hq, if_neg]
      rintro ⟨h5, rfl, -⟩
      exact hq ⟨by omega, by decide⟩

/-- An automaton with entries for representatives only. -/
def onlyReps (g : Fsm) : Fsm := { g with tr := fun q c => if g.letters.inv c = some c then g.tr q c else none }

theorem buildScanner_congr {P : Policy} {f g : Fsm} (h1 : g.size = f.size) (h2 : g.letters = f.letters) (h3 : g.finals = f.finals)
    (h4 : g.tags = f.tags) (h5 : g.deadStates = f.deadStates)
    (h6 : ∀ q, ∀ e ∈ f.letters.set, g.destinations q e.rep = f.destinations q e.rep) (s : Multi) : buildScanner P g s = buildScanner P f s := by
  unfold buildScanner
  simp only
  have ht : ∀ q, tagOf g g.deadStates q = tagOf f f.deadStates q := by
    intro q
    unfold tagOf isFinal
    rw [h3, h4, h5]
  rw [h1, h2]
  simp only [ht]
  congr 1
  generalize (List.range f.size).foldl (fun s state => s.setTag P state (tagOf f f.deadStates state)) s = s0
  generalize List.range f.size = l
  induction l generalizing s0 with
  | nil => rfl
  | cons q l ih =>
    rw [List.foldl_cons, List.foldl_cons]
    have : ∀ (es : List PClass), (∀ e ∈ es, e ∈ f.letters.set) → ∀ s1 : Multi,
        es.foldl (fun s e => (elems (g.destinations q e.rep)).foldl (fun s dest => s.setJump P q e.rep dest) s) s1 =
        es.foldl (fun s e => (elems (f.destinations q e.rep)).foldl (fun s dest => s.setJump P q e.rep dest) s) s1 := by
      intro es
      induction es with
      | nil => intro _ s1; rfl
      | cons e es ih =>
        intro hes s1
        rw [List.foldl_cons, List.foldl_cons, h6 q e (hes e (by simp))]
        exact ih (fun e he => hes e (by simp [he])) _
    rw [this _ (fun _ h => h)]
    exact ih _

/-- The words that contain a prefix from `L` ending with the end mark. -/
def marked (L : Language Nat) : Language Nat := {w | IsWord w ∧ ∃ u v, w = u ++ [259] ++ v ∧ u ++ [259] ∈ L}

theorem makeHalfFinal_spec {f : Fsm} (h : f.Det) (ht : f.TagsClean) :
    ∃ g : Fsm, g.Det ∧ g.TagsClean ∧ g.size = f.size + 1 ∧ g.Lang = marked f.Lang ∧
      (∀ (P : Policy) (s : Multi), buildScanner P (makeHalfFinal f) s = buildScanner P g s) ∧
      g.letters = (makeHalfFinal f).letters ∧ g.initial = (makeHalfFinal f).initial ∧ g.finals = (makeHalfFinal f).finals ∧ g.size = (makeHalfFinal f).size := by
  obtain ⟨δ, hδ⟩ := det_delta h
  obtain ⟨k, hk, k1, k2, k3, k4, k5, k6, k7⟩ := makeHalfFinal_raw h hδ
  have hkw : k.WF := by
    refine ⟨by rw [k1, k2]; have := h.wf.init_lt; omega, fun q hq => by rw [k3, Finset.mem_singleton] at hq; omega, ?_, by rw [k6]; exact h.wf.let_wf,
      by rw [k6]; exact h.wf.let_lt⟩
    intro q c S hS
    rw [k7] at hS
    split at hS
    · rename_i hq
      cases hS
      refine ⟨by omega, hq.2.1, fun p hp => ?_⟩
      rw [Finset.mem_singleton] at hp
      subst hp
      split
      · omega
      · split
        · omega
        · have := (hδ q (by omega) c hq.2).1
          omega
    · cases hS
  obtain ⟨s1, s2, s3, -⟩ := sparse_letters hkw false
  have hsw := hkw.sparse
  obtain ⟨g, hg⟩ : ∃ g, g = onlyReps k.sparse := ⟨_, rfl⟩
  have hinvrep : ∀ c r, k.sparse.letters.inv c = some r → k.sparse.letters.inv r = some r := by
    intro c r hr
    obtain ⟨e, he, rfl, -⟩ := (s1.inv_iff _ _).1 hr
    exact s1.inv_of_mem he (s1.rep_mem e he)
  have gtr : ∀ q c, g.tr q c = if k.sparse.letters.inv c = some c then k.tr q c else none := by intro q c; rw [hg]; rfl
  have gl : g.letters = k.sparse.letters := by rw [hg]; rfl
  have gsz : g.size = f.size + 1 := by rw [hg]; exact k1
  have hgw : g.WF := by
    refine ⟨by rw [gsz]; have : g.initial = f.initial := by rw [hg]; exact k2
               rw [this]; have := h.wf.init_lt; omega, fun q hq => by have : g.finals = {f.size} := by rw [hg]; exact k3
                                                                      rw [this, Finset.mem_singleton] at hq; omega, ?_, by rw [gl]; exact s1,
      by rw [gl]; exact hsw.let_lt⟩
    intro q c S hS
    rw [gtr] at hS
    split at hS
    · have := hkw.tr_lt q c S hS
      rw [gsz, ← k1]; exact this
    · cases hS
  have hdet : g.Det := by
    refine ⟨hgw, by rw [hg]; exact k4, ?_, ?_, ?_⟩
    · intro c
      rw [gl, s2 c]
      exact and_congr_right fun _ => by simp
    · intro q hq e he
      rw [gl] at he
      have hr := s1.inv_of_mem he (s1.rep_mem e he)
      rw [gtr, if_pos hr, k7, if_pos ⟨by omega, hsw.let_lt _ _ hr⟩]
      exact ⟨_, rfl⟩
    · intro q c hc
      rw [gtr] at hc
      rw [gl]
      by_contra hn
      rw [if_neg hn] at hc
      exact hc rfl
  have hedge : ∀ q c p, g.Edge q c p ↔ q ≤ f.size ∧ IsLetter c ∧ p = (if q = f.size then f.size else if c = 259 ∧ δ q 259 ∈ f.finals then f.size else δ q c) := by
    intro q c p
    rw [edge_iff]
    have hdst : g.dst q (g.key c) = k.dst q c := by
      unfold dst
      rw [gtr]
      by_cases hc : IsLetter c
      · obtain ⟨r, hr⟩ := Option.isSome_iff_exists.1 ((hdet.all c).2 hc)
        have hkey : g.key c = r := by rw [hgw.key_eq_repOr, Partition.repOr, hr]; rfl
        rw [gl] at hr
        rw [hkey, if_pos (hinvrep c r hr), s3 c r hr q]
      · have hkey : g.key c = c := by
          rw [hgw.key_eq_repOr, Partition.repOr]
          cases hr : g.letters.inv c with
          | none => rfl
          | some r => exact absurd (hgw.let_lt c r hr) hc
        rw [hkey, k7, if_neg (show ¬ (q ≤ f.size ∧ IsLetter c) from fun x => hc x.2)]
        simp
    rw [hdst, dst, k7]
    by_cases hq : q ≤ f.size ∧ IsLetter c
    · rw [if_pos hq]
      simp only [Option.getD_some, Finset.mem_singleton]
      tauto
    · rw [if_neg hq]
      simp only [Option.getD_none, Finset.notMem_empty, false_iff]
      tauto
  have gfin : g.finals = {f.size} := by rw [hg]; exact k3
  have gini : g.initial = f.initial := by rw [hg]; exact k2
  have gtags : g.tags = f.tags := by rw [hg]; exact k5
  have hEs : k.sparse.Edge = g.Edge := by
    funext q c p
    rw [eq_iff_iff, sparse_edge hkw, hedge, dst, k7]
    by_cases hq : q ≤ f.size ∧ IsLetter c
    · rw [if_pos hq]
      simp only [Option.getD_some, Finset.mem_singleton]
      tauto
    · rw [if_neg hq]
      simp only [Option.getD_none, Finset.notMem_empty, false_iff]
      tauto
  have hflt : ∀ q ∈ f.finals, q < f.size := h.wf.fin_lt
  refine ⟨g, hdet, fun q t hq => ht q t (by rw [← gtags]; exact hq), gsz, ?_, ?_, by rw [hk, gl], by rw [hk, gini]; exact k2.symm, by rw [hk, gfin]; exact k3.symm,
    by rw [hk, gsz]; exact k1.symm⟩
  · ext w
    rw [mem_lang, gini, gfin]
    constructor
    · rintro ⟨p, hp, hr⟩
      rw [Finset.mem_singleton] at hp
      subst hp
      have hw : IsWord w := hdet.wf.lang_word (f := g) ⟨f.size, by rw [gfin]; simp, hr⟩
      refine ⟨hw, ?_⟩
      have key : ∀ {q w p}, Run g.Edge q w p → p = f.size → q < f.size → ∃ u v, w = u ++ [259] ++ v ∧ u ++ [259] ∈ f.LangFrom q := by
        intro q w p hr
        induction hr with
        | refl => intro a b; omega
        | eps e _ _ => exact absurd e hdet.no_eps
        | @step q c q' w p hc e _ ih =>
          intro hp hq
          obtain ⟨-, hl, hq'⟩ := (hedge _ _ _).1 e
          rw [if_neg (by omega)] at hq'
          by_cases h3 : c = 259 ∧ δ q 259 ∈ f.finals
          · refine ⟨[], w, by rw [h3.1]; rfl, δ q 259, h3.2, ?_⟩
            exact .step (by decide) (((hδ q hq 259 (by decide)).2 _).2 rfl) (.refl _)
          · rw [if_neg h3] at hq'
            subst hq'
            obtain ⟨hlt, hed⟩ := hδ q hq c hl
            obtain ⟨u, v, rfl, p', hp', hr'⟩ := ih hp hlt
            exact ⟨c :: u, v, rfl, p', hp', .step hc ((hed _).2 rfl) hr'⟩
      exact key hr rfl h.wf.init_lt
    · rintro ⟨hw, u, v, rfl, hL⟩
      refine ⟨f.size, by simp, ?_⟩
      have loop : ∀ v, IsWord v → Run g.Edge f.size v f.size := by
        intro v
        induction v with
        | nil => intro _; exact .refl _
        | cons c v ih =>
          intro hv
          have hc := hv c (by simp)
          exact .step hc.2 ((hedge _ _ _).2 ⟨le_rfl, hc, by rw [if_pos rfl]⟩) (ih fun x hx => hv x (by simp [hx]))
      have key : ∀ u q, q < f.size → IsWord (u ++ [259] ++ v) → u ++ [259] ∈ f.LangFrom q → Run g.Edge q (u ++ [259] ++ v) f.size := by
        intro u
        induction u with
        | nil =>
          rintro q hq hw ⟨p, hp, hr⟩
          cases hr with
          | eps e _ => exact absurd e h.no_eps
          | step hc e hr' =>
            have := ((hδ q hq 259 (by decide)).2 _).1 e
            subst this
            cases hr' with
            | eps e _ => exact absurd e h.no_eps
            | refl =>
              refine .step hc ((hedge _ _ _).2 ⟨by omega, by decide, ?_⟩) (loop v fun x hx => hw x (by simp [hx]))
              rw [if_neg (by omega), if_pos ⟨rfl, hp⟩]
        | cons c u ih =>
          rintro q hq hw ⟨p, hp, hr⟩
          have hcl : IsLetter c := hw c (by simp)
          cases hr with
          | eps e _ => exact absurd e h.no_eps
          | @step _ _ q' _ _ hc e hr' =>
            have := ((hδ q hq c hcl).2 _).1 e
            subst this
            by_cases h3 : c = 259 ∧ δ q 259 ∈ f.finals
            · refine .step hc ((hedge _ _ _).2 ⟨by omega, hcl, ?_⟩) (loop _ fun x hx => hw x (List.mem_cons_of_mem _ hx))
              rw [if_neg (by omega), if_pos h3]
            · refine .step hc ((hedge _ _ _).2 ⟨by omega, hcl, ?_⟩)
                (ih _ (hδ q hq c hcl).1 (fun x hx => hw x (List.mem_cons_of_mem _ hx)) ⟨p, hp, hr'⟩)
              rw [if_neg (by omega), if_neg h3]
      exact key u _ h.wf.init_lt hw hL
  · intro P s
    rw [hk]
    refine (buildScanner_congr (f := k.sparse) (g := g) (by rw [gsz]; exact k1.symm) gl (by rw [gfin]; exact k3.symm) (by rw [gtags]; exact k5.symm) ?_ ?_ s).symm
    · ext q
      rw [mem_deadStates hgw hdet.coh, mem_deadStates hsw (Coh.sparse hkw), hEs, gsz, gini]
      have : k.sparse.LangFrom q = g.LangFrom q := by
        unfold LangFrom
        rw [hEs, gfin, show k.sparse.finals = {f.size} from k3]
      rw [this, show k.sparse.size = f.size + 1 from k1, show k.sparse.initial = f.initial from k2]
    · intro q e he
      have hr := s1.inv_of_mem he (s1.rep_mem e he)
      have hd : ∀ c, k.sparse.letters.inv c = some c → g.dst q c = k.sparse.dst q c := by
        intro c hc
        unfold dst
        rw [gtr, if_pos hc]; rfl
      have ht : ∀ x : Fsm, x.letters = k.sparse.letters → x.sparsed = true → x.translate e.rep = e.rep := by
        intro x hx hxs
        unfold translate
        rw [hxs, hx]
        by_cases h257 : e.rep = 257
        · simp [h257]
        · simp only [Bool.not_true, Bool.false_or]
          rw [if_neg (by simpa using h257)]
          unfold Partition.representative
          rw [hr]; rfl
      unfold destinations
      rw [ht g gl (by rw [hg]; rfl), ht k.sparse rfl rfl, hd _ hr]

/-! ### `AllowHalfFinals` -/

/-- Every state can be reached from the initial one. -/
def Reachable (f : Fsm) : Prop := ∀ q < f.size, ∃ w, IsWord w ∧ Run f.Edge f.initial w q

theorem minimize_reach {f : Fsm} (h : f.Det) (hr : Reachable f) : Reachable f.minimize := by
  obtain ⟨m1, m2, m3, m4, m5, m6, ⟨cls, c1, c2, c3⟩, m8⟩ := h.minimize
  intro k hk
  obtain ⟨q, hq, rfl⟩ := c2 k hk
  obtain ⟨w, hwd, hw⟩ := hr q hq
  refine ⟨w, hwd, ?_⟩
  obtain ⟨p, hp, hr⟩ := m1.exists_run hwd m1.wf.init_lt
  have : cls q = p := by
    apply m8 _ (c1 q hq).1 _ hp
    rw [(c1 q hq).2]
    ext v
    rw [h.residual hw, m1.residual hr, m2]
  rw [this]
  exact hr

theorem canonize_reachable {f g : Fsm} (h : f.Good) (hr : f.determined = true → Reachable f) {m : Nat} (hg : f.canonize m = some g) : Reachable g := by
  cases hd : f.determined with
  | false => exact canonize_reach h hd hg
  | true =>
    unfold canonize at hg
    rw [if_pos hd] at hg
    cases hg
    exact minimize_reach (h.det hd) (hr hd)

theorem any_elems_singleton (f : Fsm) (x : Nat) : (elems {x}).any f.isFinal = true ↔ x ∈ f.finals := by
  rw [elems_singleton]; simp [isFinal]

theorem allowHalfFinals_iff {f : Fsm} (h : f.Det) : allowHalfFinals f = true ↔ ∀ q ∈ f.finals, ∀ c p, IsLetter c → f.Edge q c p → p ∈ f.finals := by
  have hdest : ∀ q < f.size, ∀ e ∈ f.letters.set, ∃ p, f.destinations q e.rep = {p} ∧ ∀ c ∈ e.members, ∀ p', f.Edge q c p' ↔ p' = p := by
    intro q hq e he
    obtain ⟨p, hp⟩ := h.total q hq e he
    have hinv := h.wf.let_wf.inv_of_mem he (h.wf.let_wf.rep_mem e he)
    have htr : f.translate e.rep = e.rep := by
      unfold translate
      split
      · rfl
      · unfold Partition.representative; rw [hinv]; rfl
    refine ⟨p, by unfold destinations dst; rw [htr, hp]; rfl, fun c hc p' => ?_⟩
    have hc' := h.wf.let_wf.inv_of_mem he hc
    rw [edge_iff, h.wf.key_eq_repOr, Partition.repOr, hc', Option.getD_some, dst, hp]
    simp
  unfold allowHalfFinals
  simp only [List.all_eq_true, List.mem_range, Bool.or_eq_true, Bool.not_eq_true', beq_iff_eq]
  constructor
  · intro hall q hq c p hc e
    obtain ⟨k, hk, hm⟩ := h.mem_class hc
    obtain ⟨p', h1, h2⟩ := hdest q (h.wf.fin_lt q hq) k hk
    rcases hall q (h.wf.fin_lt q hq) with h3 | h3
    · simp [isFinal, hq] at h3
    · have := h3 k hk
      rw [h1] at this
      rcases this with h4 | h4
      · simp at h4
      · rw [(h2 c hm p).1 e]; exact (any_elems_singleton f p').1 h4
  · intro hall q hq
    by_cases hf : q ∈ f.finals
    · right
      intro e he
      obtain ⟨p, h1, h2⟩ := hdest q hq e he
      right
      rw [h1, any_elems_singleton]
      have hm := h.wf.let_wf.rep_mem e he
      exact hall q hf e.rep p (h.member_letter he hm) ((h2 _ hm p).2 rfl)
    · left; simp [isFinal, hf]

theorem allow_extensible {f : Fsm} (h : f.Det) (hr : Reachable f) : allowHalfFinals f = true ↔ Extensible f.Lang := by
  rw [allowHalfFinals_iff h]
  constructor
  · intro hall u v hu hv
    induction v using List.reverseRecOn with
    | nil => rw [List.append_nil]; exact hu
    | append_singleton v c ih =>
      obtain ⟨p, hp, hrun⟩ := ih fun x hx => hv x (by simp [hx])
      have hc := hv c (by simp)
      obtain ⟨p', e⟩ := h.exists_edge (h.wf.fin_lt p hp) hc
      refine ⟨p', hall p hp c p' hc e, ?_⟩
      rw [← List.append_assoc]
      exact hrun.snoc hc.2 e
  · intro hext q hq c p hc e
    obtain ⟨w, -, hw⟩ := hr q (h.wf.fin_lt q hq)
    obtain ⟨p', hp', hrun⟩ := hext w [c] ⟨q, hq, hw⟩ (by intro x hx; rw [List.mem_singleton.1 hx]; exact hc)
    rw [h.run_unique (hw.snoc hc.2 e) hrun]
    exact hp'

/-! ### The scanners -/

/-- The language a half-final scanner made from an ordinary automaton looks for. -/
noncomputable def halfLang (L : Language Nat) : Language Nat :=
  open Classical in if Extensible L then allWords * firsts L else marked L

theorem ofCanonized_spec {P : Policy} {base : Nat} {g : Fsm} (hP : P.Real) (h : g.Det) (ht : g.TagsClean) (hal : base % 8 = 0)
    (hsp : base + bufSize P (compileCanonized P base g).m ≤ 2 ^ 64) (hn : g.size ≤ 900000) :
    Valid P (compileCanonized P base g) ∧ (compileCanonized P base g).empty = false ∧ Recognizes P (compileCanonized P base g) [g.Lang] := by
  obtain ⟨r1, r2, -⟩ := compileCanonized_repr hP h ht (room_of hP h hal hsp hn)
  exact ⟨⟨_, r1⟩, r2, (r1.toCore.recognizes r2).2 (tblOf_sem h ht)⟩

theorem ofFsm_spec {P : Policy} {base d : Nat} {f : Fsm} {s : Multi} (hP : P.Real) (h : (f.withDistance d).Good)
    (ht : (f.withDistance d).TagsIn (· = 0)) (hd : (f.withDistance d).determined = true → Reachable (f.withDistance d))
    (hs : ofFsm P base f d = some s) (hal : base % 8 = 0) (hsp : base + bufSize P s.m ≤ 2 ^ 64)
    (hn : (f.withDistance d).determined = true → (f.withDistance d).size ≤ 800000) :
    Valid P s ∧ s.empty = false ∧ Recognizes P s [halfLang (f.withDistance d).Lang] := by
  unfold ofFsm at hs
  generalize f.withDistance d = f at *
  rw [Option.map_eq_some_iff] at hs
  obtain ⟨g, hg, rfl⟩ := hs
  unfold makeScanner at hg
  rw [Option.bind_eq_some_iff] at hg
  obtain ⟨f1, hf1, hg⟩ := hg
  rw [Option.bind_eq_some_iff] at hg
  obtain ⟨f2, hf2, hg⟩ := hg
  have hor : ∀ a b : Nat, a = 0 → b = 0 → a ||| b = 0 := fun _ _ a b => by rw [a, b]; rfl
  obtain ⟨d1, a1, l1, -⟩ := canonize_spec h hf1
  have g1 := Good.of_det d1 a1
  have r1 := canonize_reachable h hd hf1
  have t1 := TagsIn.canonize (M := (· = 0)) hor ht hf1
  obtain ⟨d2, a2, l2, -⟩ := canonize_spec g1 hf2
  have r2 := canonize_reachable g1 (fun _ => r1) hf2
  have t2 := TagsIn.canonize (M := (· = 0)) hor t1 hf2
  have z1 : f1.size ≤ 800000 := by
    have := canonize_size h hf1
    split at this
    · rename_i hx; exact this.trans (hn hx)
    · simp at this; omega
  have z2 : f2.size ≤ 800000 := by
    have := canonize_size g1 hf2
    rw [if_pos d1.flag] at this
    omega
  have hL : f2.Lang = f.Lang := l2.trans l1
  have hall := allow_extensible d2 r2
  rw [hL] at hall
  unfold halfLang
  by_cases hx : allowHalfFinals f2 = true
  · rw [if_pos hx] at hg
    rw [if_pos (hall.1 hx)]
    obtain ⟨d3, a3, l3, z3, t3⟩ := disconnectFinals_spec d2 a2 hg
    have : g.Lang = allWords * firsts f.Lang := by rw [l3, if_pos rfl, hL]
    rw [← this]
    exact ofCanonized_spec hP d3 (tagsClean_of_zero (t3 t2)) hal hsp (by omega)
  · rw [if_neg hx] at hg
    cases hg
    rw [if_neg (fun y => hx (hall.2 y))]
    obtain ⟨k, k1, k2, k3, k4, k5, k6, k7, k8, k9⟩ := makeHalfFinal_spec d2 (tagsClean_of_zero t2)
    rw [hL] at k4
    have e : buildScanner P (makeHalfFinal f2) (init P base (makeHalfFinal f2).size (makeHalfFinal f2).letters (makeHalfFinal f2).finals.card
        (makeHalfFinal f2).initial 1) = compileCanonized P base k := by
      rw [k5, ← k6, ← k7, ← k8, ← k9]; rfl
    rw [e] at hsp ⊢
    rw [← k4]
    exact ofCanonized_spec hP k1 k2 hal hsp (by omega)

/-- The language of the automaton `MakeNonGreedyCounter` makes. -/
def counterLang (allowIntersects simplify : Bool) (L : Language Nat) : Language Nat :=
  if allowIntersects = false then chain (allWords * L)
  else if simplify then allWords * firsts (allWords * L) else allWords * L

theorem makeNonGreedyCounter_spec {b s : Bool} {f g : Fsm} (h : f.Good) (ht : f.TagsIn (· = 0)) (hg : makeNonGreedyCounter b s f = some g) :
    g.Det ∧ g.TagsIn (· = 0) ∧ g.size ≤ 200001 ∧ g.Lang = counterLang b s f.Lang := by
  unfold makeNonGreedyCounter at hg
  rw [Option.bind_eq_some_iff] at hg
  obtain ⟨f1, hf1, hg⟩ := hg
  rw [Option.bind_eq_some_iff] at hg
  obtain ⟨f2, hf2, hg⟩ := hg
  have hor : ∀ a b : Nat, a = 0 → b = 0 → a ||| b = 0 := fun _ _ a b => by rw [a, b]; rfl
  obtain ⟨d1, a1, l1, -⟩ := canonize_spec h hf1
  have g1 := (Good.of_det d1 a1).prependAnything
  have t1 := TagsIn.canonize (M := (· = 0)) hor ht hf1
  have hnd : f1.prependAnything.determined = false := rfl
  have g2 := Parse.good_removeDeadEnds g1 hnd
  have hnd2 : f1.prependAnything.removeDeadEnds.determined = false := by rw [Parse.removeDeadEnds_determined]; exact hnd
  obtain ⟨d2, a2, l2, -⟩ := canonize_spec g2 hf2
  have t2 : f2.TagsIn (· = 0) := TagsIn.canonize (M := (· = 0)) hor
    (by intro q t hq; rw [removeDeadEnds_tags, prependAnything_tags] at hq; exact t1 q t hq) hf2
  have z2 : f2.size ≤ 200001 := by
    have := canonize_size g2 hf2
    rw [if_neg (by rw [hnd2]; simp)] at this
    simpa using this
  have hL : f2.Lang = allWords * f.Lang := by
    rw [l2, lang_removeDeadEnds g1.wf g1.coh, lang_prependAnything d1.wf, l1]
  unfold counterLang
  cases b with
  | false =>
    rw [if_pos (by simp)] at hg
    obtain ⟨d3, a3, l3, z3, t3⟩ := disconnectFinals_spec d2 a2 hg
    refine ⟨d3, t3 t2, z3, ?_⟩
    rw [l3, if_neg (by simp), hL, if_pos rfl]
    rfl
  | true =>
    cases s with
    | true =>
      rw [if_pos (by simp)] at hg
      obtain ⟨d3, a3, l3, z3, t3⟩ := disconnectFinals_spec d2 a2 hg
      refine ⟨d3, t3 t2, z3, ?_⟩
      rw [l3, if_pos rfl, hL, if_neg (by simp), if_pos rfl]
    | false =>
      rw [if_neg (by simp)] at hg
      cases hg
      refine ⟨d2, t2, z2, ?_⟩
      rw [hL, if_neg (by simp), if_neg (by simp)]

end HalfFinal
end Pire
