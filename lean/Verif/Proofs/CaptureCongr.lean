import Verif.Proofs.CaptureTable

/-!
# `SlowCapturingScanner`: runs depend only on the transitions that are used
-/

namespace Pire
namespace Capture
open Spec Slow

/-! ### The exact lists -/

theorem flatMap_only {α β : Type} {l : List α} (hn : l.Nodup) {a : α} (ha : a ∈ l) {G : α → List β} (h : ∀ b ∈ l, b ≠ a → G b = []) : l.flatMap G = G a := by
  induction l with
  | nil => cases ha
  | cons b l ih =>
    rw [List.nodup_cons] at hn
    rw [List.flatMap_cons]
    rcases List.mem_cons.1 ha with rfl | ha
    · have : l.flatMap G = [] := by
        rw [List.flatMap_eq_nil_iff]
        exact fun b hb => h b (List.mem_cons_of_mem _ hb) fun hx => hn.1 (hx ▸ hb)
      rw [this, List.append_nil]
    · rw [h b (List.mem_cons_self ..) fun hx => hn.1 (hx ▸ ha), List.nil_append]
      exact ih hn.2 ha fun c hc => h c (List.mem_cons_of_mem _ hc)

theorem filter_flatMap' {α β : Type} (l : List α) (G : α → List β) (P : β → Bool) : (l.flatMap G).filter P = l.flatMap fun a => (G a).filter P := by
  induction l with
  | nil => rfl
  | cons a l ih => rw [List.flatMap_cons, List.filter_append, ih, List.flatMap_cons]

/-- The list of transitions: in the order of the numbers of the states. -/
theorem slowCompile_exact {f : Fsm} (h : f.WF) (hs : f.size ≤ 2 ^ 32) (ho : ∀ q p, f.output q p < 2 ^ 32) :
    (∀ q < f.size, ∀ c < 264, (slowCompile f).nextStates q c = some ((elems (f.dst q c)).map fun d => (d, f.output q d))) ∧
    ∀ q, f.size ≤ q → ∀ c, (slowCompile f).nextStates q c = none := by
  obtain ⟨hw, hall, htr, -⟩ := Fsm.sparse_letters h true
  have hlc : (slowCompile f).lettersCount = (f.sparse true).letters.size := rfl
  have hvec : (slowCompile f).vec = (writes (f.sparse true)).foldl (fun v w => v.modify w.1 (· ++ [w.2]))
      (List.replicate (f.size * (f.sparse true).letters.size) []) := slowCompile_vec f 0
  constructor
  · intro q hq c hc
    have hsome := (hall c).2 ⟨hc, fun _ => rfl⟩
    rw [Option.isSome_iff_exists] at hsome
    obtain ⟨r, hr⟩ := hsome
    obtain ⟨e, he, rfl, hm⟩ := (hw.inv_iff c r).1 hr
    have hdst : ∀ (q' : Nat) (e' : PClass) (c' : Nat), e' ∈ (f.sparse true).letters.set → c' ∈ e'.members →
        (f.sparse true).destinations q' e'.rep = f.dst q' c' := by
      intro q' e' c' he' hm'
      have h1 := htr c' e'.rep (hw.inv_of_mem he' hm') q'
      have h2 : (f.sparse true).translate e'.rep = e'.rep := by
        unfold Fsm.translate
        split
        · rfl
        · unfold Partition.representative
          rw [hw.inv_of_mem he' (hw.rep_mem e' he')]; rfl
      unfold Fsm.destinations
      rw [h2]
      show (f.tr q' e'.rep).getD ∅ = (f.tr q' c').getD ∅
      rw [h1]
    have hletter : ∀ (e' : PClass) (c' : Nat), e' ∈ (f.sparse true).letters.set → c' ∈ e'.members →
        (letterTable (f.sparse true).letters)[c']? = some e'.idx := by
      intro e' c' he' hm'
      exact letterTable_get hw he' hm' ((hall c').1 (by rw [hw.inv_of_mem he' hm']; rfl)).1
    have hidx := hw.idx_lt e he
    have hlt : q * (f.sparse true).letters.size + e.idx < f.size * (f.sparse true).letters.size := by
      have : (q + 1) * (f.sparse true).letters.size ≤ f.size * (f.sparse true).letters.size := Nat.mul_le_mul_right _ hq
      rw [Nat.succ_mul] at this
      unfold Partition.size at *; omega
    have hl : ∀ e' ∈ (f.sparse true).letters.set, (letterTable (f.sparse true).letters).getD e'.rep 0 = e'.idx := by
      intro e' he'
      rw [List.getD_eq_getElem?_getD, hletter e' _ he' (hw.rep_mem e' he')]; rfl
    have same : ∀ q' (e' : PClass), e' ∈ (f.sparse true).letters.set →
        q' * (f.sparse true).letters.size + e'.idx = q * (f.sparse true).letters.size + e.idx → q' = q ∧ e' = e := by
      intro q' e' he' heq
      have hidx' := hw.idx_lt e' he'
      have hpos : 0 < (f.sparse true).letters.size := by unfold Partition.size; omega
      have h3 : e'.idx = e.idx := by
        have := congrArg (· % (f.sparse true).letters.size) heq
        simp only [Nat.mul_add_mod_of_lt (show e'.idx < (f.sparse true).letters.size from hidx'),
          Nat.mul_add_mod_of_lt (show e.idx < (f.sparse true).letters.size from hidx)] at this
        exact this
      refine ⟨?_, List.inj_on_of_nodup_map hw.idx_nodup he' he h3⟩
      rw [h3] at heq
      exact Nat.eq_of_mul_eq_mul_right hpos (Nat.add_right_cancel heq)
    have hfil : (writes (f.sparse true)).filter (fun w => decide (w.1 = q * (f.sparse true).letters.size + e.idx)) =
        (elems (f.dst q c)).map fun d => (q * (f.sparse true).letters.size + e.idx, (d % 2 ^ 32, f.output q d % 2 ^ 32)) := by
      unfold writes
      rw [filter_flatMap', flatMap_only (List.nodup_range (n := (f.sparse true).size)) (a := q) (List.mem_range.2 hq)]
      · rw [filter_flatMap', flatMap_only (List.Nodup.of_map _ hw.idx_nodup) (a := e) he]
        · rw [List.filter_eq_self.2]
          · rw [hl e he, hdst q e c he hm]; rfl
          · intro x hx
            obtain ⟨y, -, rfl⟩ := List.mem_map.1 hx
            rw [hl e he]; simp
        · intro e' he' hne
          rw [List.filter_eq_nil_iff]
          intro x hx
          obtain ⟨y, -, rfl⟩ := List.mem_map.1 hx
          rw [hl e' he', decide_eq_true_iff]
          exact fun hx => hne (same q e' he' hx).2
      · intro q' hq' hne
        rw [filter_flatMap', List.flatMap_eq_nil_iff]
        intro e' he'
        rw [List.filter_eq_nil_iff]
        intro x hx
        obtain ⟨y, -, rfl⟩ := List.mem_map.1 hx
        rw [hl e' he', decide_eq_true_iff]
        exact fun hx => hne (same q' e' he' hx).1
    unfold Table.nextStates
    rw [show (slowCompile f).letters = letterTable (f.sparse true).letters from rfl, hletter e c he hm, Option.bind_some, hvec, hlc,
      foldl_modify, List.getElem?_replicate, if_pos hlt, Option.map_some, List.nil_append, hfil, List.map_map]
    congr 1
    refine List.map_congr_left fun d hd => ?_
    rw [mem_elems] at hd
    have := (h.dst_lt hd).2.2
    show (d % 2 ^ 32, f.output q d % 2 ^ 32) = _
    rw [Nat.mod_eq_of_lt (by omega), Nat.mod_eq_of_lt (ho q d)]
  · intro q hq c
    unfold Table.nextStates
    cases hl : (slowCompile f).letters[c]? with
    | none => rfl
    | some l =>
      rw [Option.bind_some, hvec, hlc, foldl_modify, List.getElem?_replicate, if_neg]
      · rfl
      · have := Nat.mul_le_mul_right (f.sparse true).letters.size hq
        omega

/-! ### Tables that agree -/

/-- The tables agree on the letters of `C`. -/
structure Agree (C : Nat → Prop) (t t' : Table) : Prop where
  states : t.statesCount = t'.statesCount
  start : t.start = t'.start
  next : ∀ q c, C c → t.nextStates q c = t'.nextStates q c
  final : ∀ q, t.isFinal q = t'.isFinal q
  eps : C 257
  bol : C 258
  eol : C 259

variable {C : Nat → Prop} {t t' : Table}

theorem Agree.explore (h : Agree C t t') : ∀ fuel acc cur c pos, C c → t.explore fuel acc cur c pos = t'.explore fuel acc cur c pos := by
  intro fuel
  induction fuel with
  | zero => intro acc cur c pos _; rfl
  | succ fuel ih =>
    intro acc cur c pos hc
    unfold Table.explore
    rw [h.next _ _ hc]
    congr 1
    funext trs
    congr 1
    funext acc tr
    rw [h.states, ih _ _ Epsilon _ h.eps]

theorem Agree.captured (h : Agree C t t') (st : Single) : t.captured st = t'.captured st := by
  have inner : ∀ tr es m, Table.captured.inner t st tr es m = Table.captured.inner t' st tr es m := by
    intro tr es
    induction es with
    | nil => intro m; rfl
    | cons e es ih =>
      intro m
      unfold Table.captured.inner
      rw [h.final]
      congr 1
      funext f
      split
      · split
        · rfl
        · exact ih _
      · exact ih _
  have loop : ∀ trs m, Table.captured.loop t st trs m = Table.captured.loop t' st trs m := by
    intro trs
    induction trs with
    | nil => intro m; rfl
    | cons e es ih =>
      intro m
      unfold Table.captured.loop
      rw [h.final]
      congr 1
      funext f
      split
      · split
        · rfl
        · exact ih _
      · rw [h.next _ Epsilon h.eps]
        congr 1
        funext x
        rw [inner]
        congr 1
        funext r
        split
        · rfl
        · exact ih _
  unfold Table.captured
  rw [h.final]
  congr 1
  funext f
  split
  · rfl
  · rw [h.next _ EndMark h.eol]
    congr 1
    funext trs
    exact loop _ _

theorem Agree.pushAll (h : Agree C t t') : ∀ ss n, t.pushAll n ss = t'.pushAll n ss := by
  intro ss
  induction ss with
  | nil => intro n; rfl
  | cons s ss ih =>
    intro n
    unfold Table.pushAll
    rw [h.captured]
    congr 1
    funext r
    split
    · rfl
    · exact ih _

theorem Agree.update (h : Agree C t t') (n : SState) (g : Groups) : t.update n g = t'.update n g := h.pushAll _ _

theorem Agree.initState (h : Agree C t t') : t.initState = t'.initState := by
  unfold Table.initState
  rw [h.states, h.start, h.explore _ _ _ _ _ h.bol]
  congr 1
  funext r
  rw [h.explore _ _ _ _ _ h.bol]
  congr 1
  funext r
  exact h.update _ _

theorem Agree.nextLoop (h : Agree C t t') {c : Nat} (hc : C c) : ∀ cs acc, t.nextLoop c cs acc = t'.nextLoop c cs acc := by
  intro cs
  induction cs with
  | nil => intro acc; rfl
  | cons x cs ih =>
    intro acc
    unfold Table.nextLoop
    rw [h.states, h.explore _ _ _ _ _ hc]
    congr 1
    funext r
    rw [h.update]
    congr 1
    funext n
    exact ih _

theorem Agree.run (h : Agree C t t') (w : List Nat) (hw : ∀ c ∈ w, C c) : t.run w = t'.run w := by
  have key : ∀ (w : List Nat), (∀ c ∈ w, C c) → ∀ s, w.foldlM t.next s = w.foldlM t'.next s := by
    intro w
    induction w with
    | nil => intro _ s; rfl
    | cons c w ih =>
      intro hw s
      rw [List.foldlM_cons, List.foldlM_cons]
      have : t.next s c = t'.next s c := by unfold Table.next; rw [h.nextLoop (hw c (by simp))]
      rw [this]
      congr 1
      funext s
      exact ih (fun d hd => hw d (by simp [hd])) s
  unfold Table.run
  rw [h.initState]
  congr 1
  funext s
  exact key w hw s

theorem Agree.getCapture (h : Agree C t t') (s : SState) : t.getCapture s = t'.getCapture s := by
  have key : ∀ xs, Table.getCapture.loop t s xs = Table.getCapture.loop t' s xs := by
    intro xs
    induction xs with
    | nil => rfl
    | cons x xs ih =>
      unfold Table.getCapture.loop
      rw [h.captured, ih]
  exact key _

end Capture
end Pire
