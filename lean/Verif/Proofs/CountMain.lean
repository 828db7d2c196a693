import Verif.Proofs.CountNfa

/-!
# The constructor of `CountingScanner`: the automaton of which the square is made, word by word
-/

namespace Pire

open Spec

namespace Count

open Fsm Counting

/-- The only state a letter leads to. -/
def go (f : Fsm) (q c : Nat) : Nat := (elems (f.destinations q c)).headD 0

/-- The state after a word. -/
def st (f : Fsm) (w : List Nat) : Nat := w.foldl (go f) f.initial

theorem st_snoc (f : Fsm) (w : List Nat) (c : Nat) : st f (w ++ [c]) = go f (st f w) c := by
  unfold st; rw [List.foldl_append]; rfl

theorem pairStep_eq (f : Fsm) (s : Nat × Nat) (c : Nat) : pairStep f s c =
    let m := go f s.1 c
    let b := go f s.2 c
    let m' := if m ∈ f.deadStates then b else m
    ((m', if f.isFinal m' || (f.isFinal b && f.tag m' &&& 2 == 0) then f.initial else b), if m ∈ f.deadStates then 1 ||| (f.tag m &&& 2) else 0) := rfl

/-- The automaton of which the square is made, in terms of languages. -/
structure MainSpec (re sep : Language Nat) (f : Fsm) : Prop where
  wf : f.WF
  all : Multi.AllLetters f.letters
  initial_lt : f.initial < f.size
  go_lt : ∀ q < f.size, ∀ c, IsLetter c → go f q c < f.size
  go_class : ∀ q < f.size, ∀ e ∈ f.letters.set, ∀ c ∈ e.members, go f q c = go f q e.rep
  final : ∀ w, IsWord w → (f.isFinal (st f w) = true ↔ Accepted re sep w)
  dead : ∀ w, IsWord w → (st f w ∈ f.deadStates ↔ ¬ Alive re sep w)
  matched : ∀ w, IsWord w → (f.tag (st f w) &&& 2 = 2 ↔ Matched re sep w)
  alike : ∀ x y, IsWord x → IsWord y → st f x = st f y → Alike re sep x y

theorem land_two (t : Nat) : (t &&& 2 = 2 ↔ t.testBit 1 = true) ∧ (t.testBit 1 = false → t &&& 2 = 0) := by
  have h : t &&& 2 = if t.testBit 1 then 2 else 0 := by
    apply Nat.eq_of_testBit_eq
    intro i
    rw [Nat.testBit_and, show (2:Nat) = 2 ^ 1 from rfl, Nat.testBit_two_pow]
    by_cases hi : 1 = i
    · subst hi
      cases t.testBit 1
      · simp
      · simp; rfl
    · cases t.testBit 1
      · simp [hi]
      · have h2 : Nat.testBit 2 i = false := by
          rw [show (2:Nat) = 2 ^ 1 from rfl, Nat.testBit_two_pow]; simp [hi]
        simp [hi, h2]
  rw [h]
  cases t.testBit 1 <;> simp

theorem unsparse_coh {f : Fsm} (h : f.WF) : f.unsparse.Coh := by
  intro q c r hr
  right
  change f.letters.inv c = some r at hr
  rw [unsparse_tr h, unsparse_tr h, hr, h.let_wf.inv_rep hr]

theorem go_unsparse {f : Fsm} (h : f.Det) {q c p : Nat} (hq : q < f.size) (hc : IsLetter c) : f.Edge q c p ↔ p = go f.unsparse q c := by
  obtain ⟨e, he, hm⟩ := h.mem_class hc
  have h1 : f.unsparse.destinations q c = {f.firstDst q e.rep} := by
    have h2 : f.unsparse.destinations q c = f.unsparse.dst q c := rfl
    rw [h2, unsparse_dst h.wf]
    ext p
    rw [Finset.mem_singleton]
    exact h.edge_class hq he hm p
  rw [h.edge_class hq he hm]
  unfold go
  rw [h1, elems_singleton]
  rfl

theorem st_run {f : Fsm} (h : f.Det) {w : List Nat} (hw : IsWord w) : Run f.Edge f.initial w (st f.unsparse w) ∧ st f.unsparse w < f.size := by
  induction w using List.reverseRecOn with
  | nil => exact ⟨.refl _, h.wf.init_lt⟩
  | append_singleton w c ih =>
    obtain ⟨h1, h2⟩ := ih (fun x hx => hw x (by simp [hx]))
    have hc : IsLetter c := hw c (by simp)
    have e := (go_unsparse h h2 hc).2 rfl
    rw [st_snoc]
    exact ⟨h1.snoc hc.2 e, (h.wf.edge_lt e).2.2⟩

theorem isWord_append {u v : List Nat} (hu : IsWord u) (hv : IsWord v) : IsWord (u ++ v) := by
  intro c hc
  rcases List.mem_append.1 hc with h | h
  · exact hu c h
  · exact hv c h

theorem main_spec {re sep : Language Nat} {D N : Fsm} (h : NfaSpec D N) (hl : ∀ w, w ∈ D.Lang ↔ Item re sep w) (hok : N.determine.2 = true) :
    MainSpec re sep N.determine.1.unsparse := by
  obtain ⟨hdet, hlang, -, -, -, -, hreach⟩ := (determine_spec h.wf h.nd 0).1 hok
  have htag : ∀ q, N.Tagged 1 q → q < N.size := by
    intro q hq
    obtain ⟨h1, h2⟩ := (h.tagged q).1 hq
    have := h.wf.init_lt
    rw [h.initial] at this
    omega
  have hsets := determine_sets h.wf h.nd (m := 0) hok
  have htagged := fun w hw k hr => determine_tagged (b := 1) h.wf h.nd htag (m := 0) hok (fun _ t _ _ ht => h.terminal_tagged ht)
    (fun w c hw hj => by
      have hw' : IsWord w := fun x hx => hw x (by simp [hx])
      rw [h.marked hw'] at hj
      rw [h.marked hw]
      obtain ⟨u, hu, hu'⟩ := hj
      exact ⟨u, hu.trans (List.prefix_append _ _), hu'⟩) (w := w) hw (k := k) hr
  have hacc : ∀ w, w ∈ N.Lang ↔ Accepted re sep w := by
    intro w; rw [h.lang, hl]; rfl
  have hmat : ∀ w, IsWord w → ((∃ j, N.Tagged 1 j ∧ Run N.Edge N.initial w j) ↔ Matched re sep w) := by
    intro w hw
    rw [h.marked hw]
    unfold Matched
    simp only [hl]
  have hsure : ∀ x t, t ∈ N.removeEpsilons.terminalStates → Run N.removeEpsilons.Edge N.initial x t → Sure re sep x := by
    intro x t ht hr u hu
    rw [← hacc, ← lang_removeEpsilons h.wf]
    have hs := removeEpsilons_spec h.wf
    unfold terminalStates at ht
    obtain ⟨hf, hlp⟩ := Finset.mem_filter.1 ht
    refine ⟨t, hf, ?_⟩
    rw [hs.initial]
    refine hr.trans ?_
    clear hr
    induction u with
    | nil => exact .refl _
    | cons c u ih =>
      have hc : IsLetter c := hu c (by simp)
      obtain ⟨r, hrr⟩ := Option.isSome_iff_exists.1 ((hs.all c).2 hc)
      obtain ⟨e, he, rfl, hm⟩ := (hs.wf.let_wf.inv_iff _ _).1 hrr
      exact .step hc.2 ((edge_of_class hs.wf he hm _ _).2 (hlp e he)) (ih fun x hx => hu x (by simp [hx]))
  generalize hM : N.determine.1 = M at *
  have hfin : ∀ w, IsWord w → (st M.unsparse w ∈ M.finals ↔ Accepted re sep w) := by
    intro w hw
    obtain ⟨h1, h2⟩ := st_run hdet hw
    rw [← hacc, ← hlang]
    constructor
    · intro hf; exact ⟨_, hf, h1⟩
    · rintro ⟨p, hp, hr⟩; rw [hdet.run_unique h1 hr]; exact hp
  have hmt : ∀ w, IsWord w → (M.Tagged 1 (st M.unsparse w) ↔ Matched re sep w) := by
    intro w hw
    rw [htagged w hw _ (st_run hdet hw).1]
    exact hmat w hw
  have hst : ∀ x u, st M.unsparse (x ++ u) = u.foldl (go M.unsparse) (st M.unsparse x) := by
    intro x u; unfold st; rw [List.foldl_append]
  refine ⟨hdet.wf.unsparse, hdet.all, hdet.wf.init_lt, ?_, ?_, ?_, ?_, ?_, ?_⟩
  · intro q hq c hc
    exact (hdet.wf.edge_lt ((go_unsparse hdet hq hc).2 rfl)).2.2
  · intro q hq e he c hc
    have he' : e ∈ M.letters.set := he
    have h1 := (hdet.edge_class hq he' hc (go M.unsparse q c)).1 ((go_unsparse hdet hq (hdet.member_letter he' hc)).2 rfl)
    have hr := hdet.wf.let_wf.rep_mem e he'
    have h2 := (hdet.edge_class hq he' hr (go M.unsparse q e.rep)).1 ((go_unsparse hdet hq (hdet.member_letter he' hr)).2 rfl)
    rw [h1, h2]
  · intro w hw
    rw [← hfin w hw]
    unfold isFinal
    rw [decide_eq_true_iff]
    rfl
  · intro w hw
    obtain ⟨h1, h2⟩ := st_run hdet hw
    rw [mem_deadStates hdet.wf.unsparse (unsparse_coh hdet.wf)]
    have hE := unsparse_edge hdet.wf
    unfold LangFrom
    rw [hE]
    constructor
    · rintro ⟨_, h3 | h3⟩
      · exact absurd ⟨w, h1⟩ h3
      · rintro ⟨u, hu⟩
        rw [← hacc, ← hlang] at hu
        obtain ⟨p, hp, hr⟩ := hu
        obtain ⟨y, hy1, hy2⟩ := hr.split
        rw [hdet.run_unique hy1 h1] at hy2
        exact h3 ⟨u, p, hp, hy2⟩
    · intro ha
      refine ⟨h2, .inr ?_⟩
      rintro ⟨u, p, hp, hr⟩
      refine ha ⟨u, ?_⟩
      rw [← hacc, ← hlang]
      exact ⟨p, hp, h1.trans hr⟩
  · intro w hw
    rw [(land_two _).1, ← hmt w hw]
    rfl
  · intro x y hx hy hxy
    refine ⟨?_, ?_⟩
    · intro u hu
      have e : st M.unsparse (x ++ u) = st M.unsparse (y ++ u) := by rw [hst, hst, hxy]
      rw [← hfin _ (isWord_append hx hu), ← hfin _ (isWord_append hy hu), ← hmt _ (isWord_append hx hu), ← hmt _ (isWord_append hy hu), e]
      exact ⟨Iff.rfl, Iff.rfl⟩
    · obtain ⟨set, hset⟩ := hsets
      have hs := removeEpsilons_spec h.wf
      have key : ∀ w, IsWord w → (Lone w ↔ ∃ r ∈ set (st M.unsparse w), ∃ j, (2 * D.size ≤ j ∧ j - 2 * D.size ∈ anyChar.finals) ∧ Run N.Edge r [] j) ∨
          Settled re sep w := by
        intro w hw
        rcases hset w hw _ (st_run hdet hw).1 with h1 | ⟨x, v, rfl, hv, t, ht, hr⟩
        · left
          rw [← h.lone w]
          constructor
          · rintro ⟨j, hj, hr⟩
            obtain ⟨r, hr1, hr2⟩ := hs.reach_inv hr
            exact ⟨r, (h1 r).2 hr1, j, hj, hr2⟩
          · rintro ⟨r, hr, j, hj, hr2⟩
            have := hs.reach ((h1 r).1 hr)
            exact ⟨j, hj, by simpa using this.trans hr2⟩
        · exact .inr ⟨x, v, rfl, hv, hsure x t ht hr⟩
      rcases key x hx with h1 | h1
      · rcases key y hy with h2 | h2
        · left; rw [h1, h2, hxy]
        · exact .inr (.inr h2)
      · exact .inr (.inl h1)

end Count
end Pire
