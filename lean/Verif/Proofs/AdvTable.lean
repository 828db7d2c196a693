import Verif.Model.AdvancedCtor
import Verif.Proofs.Minimize
import Verif.Proofs.MultiBuild

/-! # The table of an advanced counting scanner: determination and minimisation keep the behaviour of the task -/

namespace Pire
namespace Count
namespace Adv

open Spec

theorem firstDst_of {f : Fsm} {q c p : Nat} (h : ∀ x, x ∈ f.dst q c ↔ x = p) : f.firstDst q c = p := by
  have : f.dst q c = {p} := by ext x; rw [h, Finset.mem_singleton]
  rw [Fsm.firstDst, this, Fsm.elems_singleton]; rfl

/-- The rows of the table follow the task. -/
structure Follows (L : Partition) (t : Table) (k : Kind) (f : Fsm) (rel : Nat → St → Prop) : Prop where
  init_lt : t.fsm.initial < t.fsm.size
  init : rel t.fsm.initial k.initial
  lt : ∀ q < t.fsm.size, ∀ e ∈ L.set, t.fsm.firstDst q e.rep < t.fsm.size
  step : ∀ q < t.fsm.size, ∀ s, rel q s → ∀ e ∈ L.set, rel (t.fsm.firstDst q e.rep) (k.next f s e.rep) ∧ t.actions q e.rep = k.action f s e.rep
  all : ∀ q < t.fsm.size, ∃ s, rel q s

theorem foldl_setFinal (v : Nat → Bool) (l : List Nat) (g : Fsm) :
    (l.foldl (fun g q => g.setFinal q (v q)) g).size = g.size ∧ (l.foldl (fun g q => g.setFinal q (v q)) g).initial = g.initial ∧
    (l.foldl (fun g q => g.setFinal q (v q)) g).tr = g.tr := by
  induction l generalizing g with
  | nil => exact ⟨rfl, rfl, rfl⟩
  | cons x l ih => rw [List.foldl_cons]; obtain ⟨h1, h2, h3⟩ := ih (g.setFinal x (v x)); exact ⟨h1, h2, h3⟩

theorem accept_dst (k : Kind) (f : Fsm) (smp : Bool) (states : List St) (conns : List (Nat × Nat × Nat)) :
    (k.accept f smp states conns).fsm.size = states.length ∧ (k.accept f smp states conns).fsm.initial = 0 ∧
    ∀ q c p, p ∈ (k.accept f smp states conns).fsm.dst q c ↔ (q, p, c) ∈ conns := by
  unfold Kind.accept
  dsimp only
  obtain ⟨h1, h2, h3⟩ := foldl_setFinal (fun ns => decide (∃ x ∈ (states.getD ns St.none).unmatched, f.isFinal x.1 = true)) (List.range states.length)
    { Fsm.init.resize states.length with initial := 0, determined := true }
  refine ⟨?_, ?_, ?_⟩
  · rw [Fsm.connectAll_size, h1]; simp
  · rw [Fsm.connectAll_initial, h2]
  · intro q c p
    rw [Fsm.mem_dst_connectAll, or_iff_right]
    rw [Fsm.dst, h3]
    simp [Fsm.resize, Fsm.init]

theorem accept_follows {k : Kind} {f : Fsm} {max : Nat} {states : List St} {conns : List (Nat × Nat × Nat)} (smp : Bool)
    (h : (k.task f).RunSpec max states conns) :
    Follows f.letters (k.accept f smp states conns) k f fun q s => states[q]? = some s := by
  obtain ⟨h1, h2, h3⟩ := accept_dst k f smp states conns
  have hd : ∀ q s, states[q]? = some s → ∀ e ∈ f.letters.set, ∃ p, states[p]? = some (k.next f s e.rep) ∧
      (k.accept f smp states conns).fsm.firstDst q e.rep = p := by
    intro q s hq e he
    have hr : k.next f s e.rep ∈ states := (h.mem _).2 (.step ((h.mem s).1 (List.mem_of_getElem? hq)) rfl he)
    obtain ⟨p, hp⟩ := List.mem_iff_getElem?.1 hr
    refine ⟨p, hp, firstDst_of fun x => ?_⟩
    rw [h3, h.conns]
    constructor
    · rintro ⟨s', hs', -, -, hx⟩
      rw [hq] at hs'
      cases hs'
      have hp' := List.getElem?_eq_some_iff.1 hp
      have hx' := List.getElem?_eq_some_iff.1 hx
      exact (List.Nodup.getElem_inj_iff h.nodup (hi := hx'.1) (hj := hp'.1)).1 (by rw [hx'.2, hp'.2]; rfl)
    · rintro rfl
      exact ⟨s, hq, rfl, ⟨e, he, rfl⟩, hp⟩
  have hlt : ∀ {p : Nat} {s : St}, states[p]? = some s → p < states.length := fun h => (List.getElem?_eq_some_iff.1 h).1
  refine ⟨?_, ?_, ?_, ?_, ?_⟩
  · rw [h1, h2]; exact hlt h.zero
  · rw [h2]; exact h.zero
  · intro q hq e he
    rw [h1] at hq ⊢
    obtain ⟨p, hp, hp2⟩ := hd q _ (List.getElem?_eq_getElem hq) e he
    rw [hp2]; exact hlt hp
  · intro q hq s hs e he
    obtain ⟨p, hp, hp2⟩ := hd q s hs e he
    refine ⟨by rw [hp2]; exact hp, ?_⟩
    show k.action f (states.getD q St.none) e.rep = _
    rw [List.getD_eq_getElem?_getD, hs]; rfl
  · intro q hq
    rw [h1] at hq
    exact ⟨_, List.getElem?_eq_getElem hq⟩

/-! ### Minimisation -/

theorem sameRow_iff {L : Partition} {t : Table} {p q : Nat} : sameRow L t p q = true ↔ ∀ e ∈ L.set, t.actions p e.rep = t.actions q e.rep := by
  unfold sameRow
  rw [List.all_eq_true]
  exact forall₂_congr fun e _ => beq_iff_eq

theorem first_mem {L : Partition} {t : Table} (l r : List Nat) (x : Nat) :
    x ∈ l.foldl (fun l q => if l.any (sameRow L t · q) then l else l ++ [q]) r → x ∈ r ∨ x ∈ l := by
  induction l generalizing r with
  | nil => exact .inl
  | cons y l ih =>
    intro h
    rw [List.foldl_cons] at h
    rcases ih _ h with h | h
    · split at h
      · exact .inl h
      · rcases List.mem_append.1 h with h | h
        · exact .inl h
        · rw [List.mem_singleton.1 h]; exact .inr List.mem_cons_self
    · exact .inr (List.mem_cons_of_mem _ h)

theorem first_covers {L : Partition} {t : Table} (l r : List Nat) :
    (∀ x ∈ r, x ∈ l.foldl (fun l q => if l.any (sameRow L t · q) then l else l ++ [q]) r) ∧
    ∀ q ∈ l, (l.foldl (fun l q => if l.any (sameRow L t · q) then l else l ++ [q]) r).any (sameRow L t · q) = true := by
  induction l generalizing r with
  | nil => exact ⟨fun _ h => h, by simp⟩
  | cons y l ih =>
    rw [List.foldl_cons]
    obtain ⟨h1, h2⟩ := ih (if r.any (sameRow L t · y) then r else r ++ [y])
    refine ⟨fun x hx => h1 x ?_, fun q hq => ?_⟩
    · split
      · exact hx
      · exact List.mem_append_left _ hx
    · rcases List.mem_cons.1 hq with rfl | hq
      · rw [List.any_eq_true]
        by_cases hy : r.any (sameRow L t · q) = true
        · obtain ⟨x, hx, hs⟩ := List.any_eq_true.1 hy
          exact ⟨x, h1 x (by rw [if_pos hy]; exact hx), hs⟩
        · exact ⟨q, h1 q (by rw [if_neg hy]; simp), sameRow_iff.2 fun _ _ => rfl⟩
      · exact h2 q hq

theorem first_distinct {L : Partition} {t : Table} (l r : List Nat) (hr : r.Pairwise fun a b => sameRow L t a b = false) :
    (l.foldl (fun l q => if l.any (sameRow L t · q) then l else l ++ [q]) r).Pairwise fun a b => sameRow L t a b = false := by
  induction l generalizing r with
  | nil => exact hr
  | cons y l ih =>
    rw [List.foldl_cons]
    refine ih _ ?_
    split
    · exact hr
    · rename_i h
      refine List.pairwise_append.2 ⟨hr, List.pairwise_singleton _ _, fun a ha b hb => ?_⟩
      rw [List.mem_singleton.1 hb]
      cases hs : sameRow L t a y with
      | false => rfl
      | true => exact absurd (List.any_eq_true.2 ⟨a, ha, hs⟩) h

theorem rowClass_lt {L : Partition} {t : Table} {q : Nat} (hq : q < t.fsm.size) : rowClass L t q < (firstStates L t).length := by
  have := (first_covers (L := L) (t := t) (List.range t.fsm.size) []).2 q (List.mem_range.2 hq)
  obtain ⟨x, hx, hs⟩ := List.any_eq_true.1 this
  exact List.findIdx_lt_length_of_exists ⟨x, hx, hs⟩

theorem rowClass_same {L : Partition} {t : Table} {q : Nat} (hq : q < t.fsm.size) :
    sameRow L t ((firstStates L t)[rowClass L t q]'(rowClass_lt hq)) q = true := List.findIdx_getElem (w := rowClass_lt hq)

theorem rowClass_onto {L : Partition} {t : Table} {i : Nat} (hi : i < (firstStates L t).length) : ∃ q < t.fsm.size, rowClass L t q = i := by
  have hm := (first_mem _ _ _ (List.getElem_mem hi : (firstStates L t)[i] ∈ _)).resolve_left (by simp)
  have hq := List.mem_range.1 hm
  refine ⟨_, hq, ?_⟩
  have hs := rowClass_same (L := L) hq
  have hp := first_distinct (L := L) (t := t) (List.range t.fsm.size) [] List.Pairwise.nil
  rw [List.pairwise_iff_getElem] at hp
  rcases lt_trichotomy (rowClass L t (firstStates L t)[i]) i with hlt | heq | hgt
  · have := hp _ _ (rowClass_lt hq) hi hlt
    exact absurd (hs.symm.trans this) (by simp)
  · exact heq
  · have := hp _ _ hi (rowClass_lt hq) hgt
    have hs' : sameRow L t (firstStates L t)[i] ((firstStates L t)[rowClass L t (firstStates L t)[i]]'(rowClass_lt hq)) = true :=
      sameRow_iff.2 fun e he => (sameRow_iff.1 hs e he).symm
    exact absurd (hs'.symm.trans this) (by simp)

theorem rowClass_actions {L : Partition} {t : Table} {p q : Nat} (hp : p < t.fsm.size) (hq : q < t.fsm.size) (h : rowClass L t p = rowClass L t q) :
    ∀ e ∈ L.set, t.actions p e.rep = t.actions q e.rep := by
  intro e he
  have h1 := sameRow_iff.1 (rowClass_same (L := L) hp) e he
  have h2 := sameRow_iff.1 (rowClass_same (L := L) hq) e he
  rw [← h1, ← h2]
  congr 1
  simp only [h]

/-- The target on the letter class with index `l`. -/
def rowDelta (L : Partition) (t : Table) (q l : Nat) : Nat :=
  match L.set.find? fun e => e.idx == l with
  | some e => t.fsm.firstDst q e.rep
  | none => 0

theorem idx_inj {L : Partition} (hl : L.WF) {e e' : PClass} (he : e ∈ L.set) (he' : e' ∈ L.set) (h : e.idx = e'.idx) : e = e' :=
  List.inj_on_of_nodup_map hl.idx_nodup he he' h

theorem rep_inj {L : Partition} (hl : L.WF) {e e' : PClass} (he : e ∈ L.set) (he' : e' ∈ L.set) (h : e.rep = e'.rep) : e = e' := by
  have hn : (L.set.map PClass.rep).Nodup := by
    rw [List.Nodup, List.pairwise_map]
    exact hl.sorted.imp fun h => Nat.ne_of_lt h
  exact List.inj_on_of_nodup_map hn he he' h

theorem rowDelta_eq {L : Partition} (hl : L.WF) {t : Table} {e : PClass} (he : e ∈ L.set) (q : Nat) : rowDelta L t q e.idx = t.fsm.firstDst q e.rep := by
  unfold rowDelta
  cases hf : L.set.find? fun x => x.idx == e.idx with
  | none =>
    have := List.find?_eq_none.1 hf e he
    simp at this
  | some e' =>
    have h1 := List.find?_some hf
    have h2 := List.mem_of_find?_eq_some hf
    simp only [beq_iff_eq] at h1
    rw [idx_inj hl h2 he h1]

theorem rowTask_wf {L : Partition} (hl : L.WF) {t : Table} (h : ∀ q < t.fsm.size, ∀ e ∈ L.set, t.fsm.firstDst q e.rep < t.fsm.size) :
    (rowTask L t).Wf (rowDelta L t) := by
  refine ⟨?_, ?_, ?_⟩
  · intro q hq l hll
    obtain ⟨e, he, rfl⟩ := DTask.exists_idx hl hll
    rw [rowDelta_eq hl he]
    exact h q hq e he
  · intro p _ l hll q
    obtain ⟨e, he, rfl⟩ := DTask.exists_idx hl hll
    rw [rowDelta_eq hl he]
    show q ∈ (List.range t.fsm.size).filter _ ↔ _
    rw [List.mem_filter, List.mem_range, List.any_eq_true]
    refine and_congr_right fun _ => ⟨?_, ?_⟩
    · rintro ⟨e', he', hx⟩
      rw [Bool.and_eq_true, beq_iff_eq, beq_iff_eq] at hx
      rw [← idx_inj hl he' he hx.1]
      exact hx.2
    · intro hx
      exact ⟨e, he, by rw [Bool.and_eq_true, beq_iff_eq, beq_iff_eq]; exact ⟨rfl, hx⟩⟩
  · intro p l
    exact List.nodup_range.filter _

/-- What minimisation comes to. -/
structure RowSpec (L : Partition) (t : Table) (cls : Nat → Nat) (n : Nat) : Prop where
  lt : ∀ q < t.fsm.size, cls q < n
  onto : ∀ k < n, ∃ q < t.fsm.size, cls q = k
  row : ∀ q < t.fsm.size, ∀ q' < t.fsm.size, cls q = cls q' → ∀ e ∈ L.set, t.actions q e.rep = t.actions q' e.rep
  step : ∀ q < t.fsm.size, ∀ q' < t.fsm.size, cls q = cls q' → ∀ e ∈ L.set, cls (t.fsm.firstDst q e.rep) = cls (t.fsm.firstDst q' e.rep)

theorem rowSpec {L : Partition} (hl : L.WF) {t : Table} (h0 : 0 < t.fsm.size)
    (h : ∀ q < t.fsm.size, ∀ e ∈ L.set, t.fsm.firstDst q e.rep < t.fsm.size) :
    RowSpec L t ((rowTask L t).run (rowClass L t) (firstStates L t).length).cls ((rowTask L t).run (rowClass L t) (firstStates L t).length).classes := by
  obtain ⟨k1, k2, k3, k4, -⟩ := MTask.run_spec (rowTask_wf hl h) (R := fun q q' => q = q') (fun _ _ _ _ h _ _ => by rw [h]) (cls0 := rowClass L t)
    (fun _ _ _ _ h => by rw [h]) (fun q hq => rowClass_lt hq) (fun i hi => rowClass_onto hi) (Nat.lt_of_le_of_lt (Nat.zero_le _) (rowClass_lt h0))
  refine ⟨k1, k2, fun q hq q' hq' he => rowClass_actions hq hq' (k4 q hq q' hq' he).1, fun q hq q' hq' hc e he => ?_⟩
  have := (k4 q hq q' hq' hc).2 e.idx (hl.idx_lt e he)
  rwa [rowDelta_eq hl he, rowDelta_eq hl he] at this

theorem fold_setFinal_if (v : Nat → Bool) (cls : Nat → Nat) (l : List Nat) (g : Fsm) :
    (l.foldl (fun g q => if v q then g.setFinal (cls q) true else g) g).size = g.size ∧
    (l.foldl (fun g q => if v q then g.setFinal (cls q) true else g) g).tr = g.tr := by
  induction l generalizing g with
  | nil => exact ⟨rfl, rfl⟩
  | cons x l ih =>
    rw [List.foldl_cons]
    obtain ⟨h1, h2⟩ := ih (if v x then g.setFinal (cls x) true else g)
    rw [h1, h2]
    split <;> exact ⟨rfl, rfl⟩

theorem acts_inner (act : Nat → Nat) (k : Nat) (l : List PClass) (hl : (l.map PClass.rep).Nodup) (a : Nat → Nat → Nat) :
    ∀ k' c, l.foldl (fun a e => if act e.rep ≠ 0 then Function.update a k (Function.update (a k) e.rep (act e.rep)) else a) a k' c =
      if k' = k ∧ act c ≠ 0 ∧ (∃ e ∈ l, e.rep = c) then act c else a k' c := by
  induction l generalizing a with
  | nil => intro k' c; simp
  | cons e l ih =>
    intro k' c
    rw [List.map_cons, List.nodup_cons] at hl
    rw [List.foldl_cons, ih hl.2]
    by_cases hc : k' = k ∧ act c ≠ 0 ∧ ∃ e ∈ l, e.rep = c
    · obtain ⟨h1, h2, e', h3, h4⟩ := hc
      rw [if_pos ⟨h1, h2, e', h3, h4⟩, if_pos ⟨h1, h2, e', List.mem_cons_of_mem _ h3, h4⟩]
    · rw [if_neg hc]
      by_cases he : k' = k ∧ act c ≠ 0 ∧ e.rep = c
      · obtain ⟨rfl, h2, rfl⟩ := he
        rw [if_pos h2, if_pos ⟨rfl, h2, e, List.mem_cons_self, rfl⟩, Function.update_self, Function.update_self]
      · rw [if_neg (show ¬ (k' = k ∧ act c ≠ 0 ∧ ∃ e_1 ∈ e :: l, e_1.rep = c) from ?_)]
        · split
          · rename_i h0
            by_cases hk : k' = k
            · subst hk
              rw [Function.update_self, Function.update_of_ne]
              rintro rfl
              exact he ⟨rfl, h0, rfl⟩
            · rw [Function.update_of_ne hk]
          · rfl
        · rintro ⟨h1, h2, e', h3, h4⟩
          rcases List.mem_cons.1 h3 with rfl | h3
          · exact he ⟨h1, h2, h4⟩
          · exact hc ⟨h1, h2, e', h3, h4⟩

theorem acts_outer {L : Partition} (hl : L.WF) (t : Table) (cls : Nat → Nat) (v : Nat → Nat → Nat) (qs : List Nat)
    (hv : ∀ q ∈ qs, ∀ e ∈ L.set, t.actions q e.rep = v (cls q) e.rep) :
    ∀ (a : Nat → Nat → Nat) k c, (∃ e ∈ L.set, e.rep = c) → (a k c = 0 ∨ a k c = v k c) → ((∃ q ∈ qs, cls q = k) ∨ a k c = v k c) →
      qs.foldl (fun a q => L.set.foldl (fun a e =>
        if t.actions q e.rep ≠ 0 then Function.update a (cls q) (Function.update (a (cls q)) e.rep (t.actions q e.rep)) else a) a) a k c = v k c := by
  have hn : (L.set.map PClass.rep).Nodup := by
    rw [List.Nodup, List.pairwise_map]
    exact hl.sorted.imp fun h => Nat.ne_of_lt h
  induction qs with
  | nil =>
    intro a k c _ _ h
    exact h.resolve_left (by simp)
  | cons q qs ih =>
    intro a k c hc h1 h2
    rw [List.foldl_cons]
    obtain ⟨e, he, hec⟩ := id hc
    have hq := hv q List.mem_cons_self e he
    have key : L.set.foldl (fun a e =>
        if t.actions q e.rep ≠ 0 then Function.update a (cls q) (Function.update (a (cls q)) e.rep (t.actions q e.rep)) else a) a k c =
        if k = cls q ∧ t.actions q c ≠ 0 ∧ (∃ e ∈ L.set, e.rep = c) then t.actions q c else a k c := acts_inner (t.actions q) (cls q) L.set hn a k c
    refine ih (fun q' hq' => hv q' (List.mem_cons_of_mem _ hq')) _ k c hc ?_ ?_
    · rw [key]
      split
      · rename_i h
        rw [hec] at hq
        right; rw [hq, h.1]
      · exact h1
    · by_cases hk : k = cls q
      · right
        rw [key]
        subst hk hec
        by_cases h0 : t.actions q e.rep = 0
        · rw [if_neg (fun h => h.2.1 h0)]
          rcases h1 with h1 | h1
          · rw [h1, ← hq, h0]
          · exact h1
        · rw [if_pos ⟨rfl, h0, e, he, rfl⟩, hq]
      · rcases h2 with ⟨q', hq', hk'⟩ | h2
        · rcases List.mem_cons.1 hq' with rfl | hq'
          · exact absurd hk'.symm hk
          · exact .inl ⟨q', hq', hk'⟩
        · right
          rw [key, if_neg (fun h => hk h.1)]
          exact h2

theorem merge_follows {L : Partition} (hl : L.WF) {t : Table} {k : Kind} {f : Fsm} {rel : Nat → St → Prop} (h : Follows L t k f rel)
    {cls : Nat → Nat} {n : Nat} (hr : RowSpec L t cls n) :
    Follows L (mergeRows L t cls n) k f fun c s => ∃ q < t.fsm.size, cls q = c ∧ rel q s := by
  have hs : (mergeRows L t cls n).fsm.size = n := by
    unfold mergeRows
    dsimp only
    rw [(fold_setFinal_if _ _ _ _).1]
    simp [Fsm.setFinal]
  have hd : ∀ q < t.fsm.size, ∀ e ∈ L.set, (mergeRows L t cls n).fsm.firstDst (cls q) e.rep = cls (t.fsm.firstDst q e.rep) := by
    intro q hq e he
    refine firstDst_of fun x => ?_
    have htr : (mergeRows L t cls n).fsm.tr = (((Fsm.init.resize n).setFinal 0 false).connectAll
        ((List.range t.fsm.size).flatMap fun q => L.set.map fun e => (cls q, cls (t.fsm.firstDst q e.rep), e.rep))).tr := by
      unfold mergeRows
      dsimp only
      rw [(fold_setFinal_if _ _ _ _).2]
    rw [Fsm.dst, htr, ← Fsm.dst, Fsm.mem_dst_connectAll, or_iff_right (by simp [Fsm.dst, Fsm.setFinal, Fsm.resize, Fsm.init])]
    simp only [List.mem_flatMap, List.mem_range, List.mem_map, Prod.mk.injEq]
    constructor
    · rintro ⟨q', hq', e', he', h1, rfl, h3⟩
      rw [← rep_inj hl he' he h3]
      exact hr.step q' hq' q hq h1 e' he'
    · rintro rfl
      exact ⟨q, hq, e, he, rfl, rfl, rfl⟩
  have ha : ∀ q < t.fsm.size, ∀ e ∈ L.set, (mergeRows L t cls n).actions (cls q) e.rep = t.actions q e.rep := by
    intro q hq e he
    let v : Nat → Nat → Nat := fun c x => if hc : ∃ q < t.fsm.size, cls q = c then t.actions hc.choose x else 0
    have hv : ∀ q < t.fsm.size, ∀ e ∈ L.set, t.actions q e.rep = v (cls q) e.rep := by
      intro q hq e he
      have hc : ∃ q' < t.fsm.size, cls q' = cls q := ⟨q, hq, rfl⟩
      show _ = dite _ _ _
      rw [dif_pos hc]
      exact hr.row q hq _ hc.choose_spec.1 hc.choose_spec.2.symm e he
    rw [hv q hq e he]
    exact acts_outer hl t cls v (List.range t.fsm.size) (fun q hq => hv q (List.mem_range.1 hq)) (fun _ _ => 0) (cls q) e.rep ⟨e, he, rfl⟩ (.inl rfl)
      (.inl ⟨q, List.mem_range.2 hq, rfl⟩)
  refine ⟨?_, ?_, ?_, ?_, ?_⟩
  · rw [hs]; exact hr.lt _ h.init_lt
  · exact ⟨_, h.init_lt, rfl, h.init⟩
  · intro c hc e he
    rw [hs] at hc ⊢
    obtain ⟨q, hq, rfl⟩ := hr.onto c hc
    rw [hd q hq e he]
    exact hr.lt _ (h.lt q hq e he)
  · rintro c - s ⟨q, hq, rfl, hrel⟩ e he
    obtain ⟨h1, h2⟩ := h.step q hq s hrel e he
    rw [hd q hq e he, ha q hq e he]
    exact ⟨⟨_, h.lt q hq e he, rfl, h1⟩, h2⟩
  · intro c hc
    rw [hs] at hc
    obtain ⟨q, hq, rfl⟩ := hr.onto c hc
    obtain ⟨s, hs⟩ := h.all q hq
    exact ⟨s, q, hq, rfl, hs⟩

theorem minimize_follows {L : Partition} (hl : L.WF) {t : Table} {k : Kind} {f : Fsm} {rel : Nat → St → Prop} (h : Follows L t k f rel) :
    ∃ rel', Follows L (minimize L t) k f rel' := ⟨_, merge_follows hl h (rowSpec hl (Nat.lt_of_le_of_lt (Nat.zero_le _) h.init_lt) h.lt)⟩

end Adv
end Count
end Pire
