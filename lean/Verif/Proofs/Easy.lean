import Verif.Model.Easy
import Verif.Proofs.Kept

/-!
# `BeginsWithCircumflex`
-/

namespace Pire.Easy

open Pire.Fsm

theorem visit_spec (l : List Nat) : ∀ (queue : List Nat) (handled : Finset Nat), l.foldl visit (queue, handled) =
    (queue ++ ((l.foldl visit (queue, handled)).1.drop queue.length), handled ∪ l.toFinset) ∧
    (∀ x ∈ (l.foldl visit (queue, handled)).1.drop queue.length, x ∈ l ∧ x ∉ handled) ∧
    ((l.foldl visit (queue, handled)).1.drop queue.length).Nodup ∧
    (∀ x ∈ l, x ∈ handled ∨ x ∈ (l.foldl visit (queue, handled)).1.drop queue.length) := by
  induction l with
  | nil => intro queue handled; simp
  | cons y l ih =>
    intro queue handled
    rw [List.foldl_cons]
    unfold visit
    dsimp only
    split
    · rename_i hy
      obtain ⟨h1, h2, h3, h4⟩ := ih queue handled
      unfold visit at h1 h2 h3 h4
      refine ⟨?_, fun x hx => ⟨List.mem_cons_of_mem _ (h2 x hx).1, (h2 x hx).2⟩, h3, ?_⟩
      · refine h1.trans ?_
        rw [List.toFinset_cons, Finset.union_insert, Finset.insert_eq_of_mem (Finset.mem_union_left _ hy)]
      · intro x hx
        rcases List.mem_cons.1 hx with rfl | hx
        · exact .inl hy
        · exact h4 x hx
    · rename_i hy
      obtain ⟨h1, h2, h3, h4⟩ := ih (queue ++ [y]) (insert y handled)
      unfold visit at h1 h2 h3 h4
      generalize l.foldl _ (queue ++ [y], insert y handled) = r at *
      obtain ⟨r1, r2⟩ := r
      dsimp only at *
      have e1 : r1 = queue ++ y :: r1.drop (queue ++ [y]).length := by
        have := congrArg Prod.fst h1
        dsimp only at this
        rw [List.append_assoc] at this
        exact this
      have e2 : r1.drop queue.length = y :: r1.drop (queue ++ [y]).length := by
        conv_lhs => rw [e1]
        simp
      rw [e2]
      refine ⟨?_, ?_, ?_, ?_⟩
      · have e3 := congrArg Prod.snd h1
        dsimp only at e3
        rw [← e1, e3, List.toFinset_cons]
        congr 1
        ext x; simp
      · intro x hx
        rcases List.mem_cons.1 hx with rfl | hx
        · exact ⟨by simp, hy⟩
        · have := h2 x hx
          exact ⟨List.mem_cons_of_mem _ this.1, fun hh => this.2 (Finset.mem_insert_of_mem hh)⟩
      · refine List.nodup_cons.2 ⟨fun hh => (h2 y hh).2 (Finset.mem_insert_self _ _), h3⟩
      · intro x hx
        rcases List.mem_cons.1 hx with rfl | hx
        · exact .inr (by simp)
        · rcases h4 x hx with hh | hh
          · rcases Finset.mem_insert.1 hh with rfl | hh
            · exact .inr (by simp)
            · exact .inl hh
          · exact .inr (List.mem_cons_of_mem _ hh)

/-- No letters but epsilon and the begin mark leave the state. -/
def Quiet (f : Fsm) (q : Nat) : Prop := ∀ c ∈ f.outgoingLetters q, c = 257 ∨ c = 258

theorem circumflexLoop_spec {f : Fsm} (h : f.WF) : ∀ (n : Nat) (queue : List Nat) (handled : Finset Nat),
    (∀ q ∈ handled, q < f.size) → (∀ q ∈ queue, q ∈ handled) → queue.Nodup →
    (∀ q ∈ handled, q ∉ queue → Quiet f q ∧ ∀ p, f.Edge q 257 p → p ∈ handled) →
    f.size ≤ n + (handled.card - queue.length) → ∃ b, circumflexLoop f n queue handled = some b ∧
      (b = true → ∃ H : Finset Nat, handled ⊆ H ∧ ∀ q ∈ H, Quiet f q ∧ ∀ p, f.Edge q 257 p → p ∈ H) := by
  intro n
  induction n with
  | zero =>
    intro queue handled hlt hq hnd hproc hn
    cases queue with
    | nil => exact ⟨true, by rw [circumflexLoop], fun _ => ⟨handled, fun _ h => h, fun q hq => hproc q hq (by simp)⟩⟩
    | cons q queue =>
      exfalso
      have h1 : handled.card ≤ f.size := by
        have : handled ⊆ Finset.range f.size := fun x hx => Finset.mem_range.2 (hlt x hx)
        simpa using Finset.card_le_card this
      have h2 : 0 < handled.card := Finset.card_pos.2 ⟨q, hq q (by simp)⟩
      simp only [List.length_cons] at hn
      omega
  | succ n ih =>
    intro queue handled hlt hq hnd hproc hn
    cases queue with
    | nil => exact ⟨true, by rw [circumflexLoop], fun _ => ⟨handled, fun _ h => h, fun q hq => hproc q hq (by simp)⟩⟩
    | cons q queue =>
      rw [circumflexLoop]
      split
      · exact ⟨false, rfl, fun hb => by cases hb⟩
      · rename_i hlet
        have hquiet : Quiet f q := by
          intro c hc
          rw [not_not, List.filter_eq_nil_iff] at hlet
          have := hlet c hc
          simp only [Epsilon, BeginMark, decide_eq_true_eq, not_and_or, not_not] at this
          exact this
        have hdest : f.destinations q Epsilon = f.dst q 257 := by
          unfold destinations translate
          simp [Epsilon]
        have hed : ∀ p, f.Edge q 257 p ↔ p ∈ elems (f.destinations q Epsilon) := by
          intro p
          rw [hdest, mem_elems, edge_iff, key_eps]
        rw [List.nodup_cons] at hnd
        obtain ⟨v1, v2, v3, v4⟩ := visit_spec (elems (f.destinations q Epsilon)) queue handled
        have hsub : ∀ x ∈ elems (f.destinations q Epsilon), x < f.size := by
          intro x hx
          rw [mem_elems, hdest, mem_dst] at hx
          obtain ⟨S, hS, hx⟩ := hx
          exact (h.tr_lt _ _ _ hS).2.2 x hx
        generalize hr : (elems (f.destinations q Epsilon)).foldl visit (queue, handled) = r at *
        obtain ⟨r1, r2⟩ := r
        dsimp only at *
        generalize hnew : r1.drop queue.length = new at *
        obtain ⟨rfl, rfl⟩ := Prod.mk.inj v1
        have hqh := hq q (by simp)
        have hcard : handled.card + new.length ≤ (handled ∪ (elems (f.destinations q Epsilon)).toFinset).card := by
          rw [← List.toFinset_card_of_nodup v3, ← Finset.card_union_of_disjoint]
          · refine Finset.card_le_card ?_
            intro x hx
            rcases Finset.mem_union.1 hx with hx | hx
            · exact Finset.mem_union_left _ hx
            · exact Finset.mem_union_right _ (List.mem_toFinset.2 (v2 x (List.mem_toFinset.1 hx)).1)
          · rw [Finset.disjoint_left]
            intro x hx hx'
            exact (v2 x (List.mem_toFinset.1 hx')).2 hx
        have hlen : queue.length + 1 ≤ handled.card := by
          have h1 : (q :: queue).Nodup := List.nodup_cons.2 hnd
          have h2 : (q :: queue).toFinset ⊆ handled := fun x hx => hq x (List.mem_toFinset.1 hx)
          have := Finset.card_le_card h2
          rw [List.toFinset_card_of_nodup h1] at this
          simpa using this
        have fin : ∀ {r : Option Bool}, (∃ b, r = some b ∧ (b = true → ∃ H : Finset Nat,
            handled ∪ (elems (f.destinations q Epsilon)).toFinset ⊆ H ∧ ∀ q ∈ H, Quiet f q ∧ ∀ p, f.Edge q 257 p → p ∈ H)) →
            ∃ b, r = some b ∧ (b = true → ∃ H : Finset Nat, handled ⊆ H ∧ ∀ q ∈ H, Quiet f q ∧ ∀ p, f.Edge q 257 p → p ∈ H) := by
          rintro r ⟨b, hb, hH⟩
          refine ⟨b, hb, fun ht => ?_⟩
          obtain ⟨H, h1, h2⟩ := hH ht
          exact ⟨H, fun x hx => h1 (Finset.mem_union_left _ hx), h2⟩
        refine fin (ih (queue ++ new) (handled ∪ (elems (f.destinations q Epsilon)).toFinset) ?_ ?_ ?_ ?_ ?_)
        · intro x hx
          rcases Finset.mem_union.1 hx with hx | hx
          · exact hlt x hx
          · exact hsub x (List.mem_toFinset.1 hx)
        · intro x hx
          rcases List.mem_append.1 hx with hx | hx
          · exact Finset.mem_union_left _ (hq x (List.mem_cons_of_mem _ hx))
          · exact Finset.mem_union_right _ (List.mem_toFinset.2 (v2 x hx).1)
        · refine List.nodup_append.2 ⟨hnd.2, v3, ?_⟩
          intro a ha b hb hab
          subst hab
          exact (v2 a hb).2 (hq a (List.mem_cons_of_mem _ ha))
        · intro x hx hxq
          by_cases hxe : x = q
          · subst hxe
            exact ⟨hquiet, fun p hp => Finset.mem_union_right _ (List.mem_toFinset.2 ((hed p).1 hp))⟩
          · have hxh : x ∈ handled := by
              rcases Finset.mem_union.1 hx with hx | hx
              · exact hx
              · rcases v4 x (List.mem_toFinset.1 hx) with h | h
                · exact h
                · exact absurd (List.mem_append_right _ h) hxq
            have := hproc x hxh (fun hh => by
              rcases List.mem_cons.1 hh with hh | hh
              · exact hxe hh
              · exact hxq (List.mem_append_left _ hh))
            exact ⟨this.1, fun p hp => Finset.mem_union_left _ (this.2 p hp)⟩
        · rw [List.length_append]
          simp only [List.length_cons] at hn
          omega

/-- The function ends, and when it says yes every word that is not empty begins with a letter the automaton does not tell from the
begin mark. -/
theorem beginsWithCircumflex_spec {f : Fsm} (h : f.WF) : ∃ b, beginsWithCircumflex f = some b ∧
    (b = true → ∀ c w, c :: w ∈ f.Lang → f.key c = 258 ∧ 258 :: w ∈ f.Lang) := by
  obtain ⟨b, hb, hH⟩ := circumflexLoop_spec h f.size [f.initial] {f.initial} (by simp [h.init_lt]) (by simp) (by simp) (by simp) (by simp)
  refine ⟨b, hb, fun ht c w hw => ?_⟩
  obtain ⟨H, h1, h2⟩ := hH ht
  have hi : f.initial ∈ H := h1 (by simp)
  obtain ⟨p, hp, hr⟩ := hw
  have key : ∀ (q : Nat) (u : List Nat) (p : Nat), q ∈ H → Run f.Edge q u p → ∀ c w, u = c :: w → f.key c = 258 ∧ Run f.Edge q (258 :: w) p := by
    clear hp hr hb hH hi
    intro q u p hq hrun
    induction hrun with
    | refl q => intro c w hcw; cases hcw
    | eps e _ ih =>
      intro c w hcw
      obtain ⟨i1, i2⟩ := ih ((h2 _ hq).2 _ e) c w hcw
      exact ⟨i1, .eps e i2⟩
    | @step q d q' v p hd e hr' _ =>
      intro c w hcw
      cases hcw
      have he : q' ∈ f.dst q (f.key d) := edge_iff.1 e
      have hk : f.key d = 258 := by
        obtain ⟨S, hS, hx⟩ := mem_dst.1 he
        have hm : f.key d ∈ f.outgoingLetters q := by
          refine mem_rowKeys.2 ⟨(h.tr_lt _ _ _ hS).2.1, by rw [hS]; rfl⟩
        rcases (h2 q hq).1 _ hm with h257 | h258
        · exfalso
          unfold key at h257
          rw [if_neg hd] at h257
          unfold Partition.repOr at h257
          cases hinv : f.letters.inv d with
          | none => rw [hinv] at h257; exact hd h257
          | some r =>
            rw [hinv] at h257
            have h257 : r = 257 := h257
            subst h257
            exact (h.let_lt _ _ (h.let_wf.inv_rep hinv)).2 rfl
        · exact h258
      refine ⟨hk, .step (by decide) (edge_iff.2 ?_) hr'⟩
      have hk2 : f.key 258 = 258 := by
        unfold key at hk ⊢
        rw [if_neg hd] at hk
        rw [if_neg (by decide)]
        rw [← hk]
        exact h.let_wf.repOr_idem
      rw [hk2, ← hk]
      exact he
  obtain ⟨k1, k2⟩ := key _ _ _ hi hr c w rfl
  exact ⟨k1, p, hp, k2⟩

end Pire.Easy
