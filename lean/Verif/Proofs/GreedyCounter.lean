import Verif.Proofs.GreedyBuild
import Mathlib.Data.Nat.Bitwise

/-!
# Greedy counters: the scanner
-/

namespace Pire
open Fsm Spec HalfFinal HalfFinal.Greedy
namespace Greedy

section
open Multi

/-- How much is counted in the state after `u`. -/
def weight (g : Fsm) (u : List Nat) : Nat := getCount g ((tblOf g).after g.initial u)

/-- Tags of states that are not final do not touch the final flag. -/
def TagsEven (g : Fsm) : Prop := ∀ q, q ∉ g.finals → g.tags q = none ∨ g.tags q = some 0

theorem tagOf_even {g : Fsm} (h : TagsEven g) (dead : Finset Nat) (q : Nat) : tagOf g dead q &&& 1 ≠ 0 ↔ q ∈ g.finals := by
  unfold tagOf Fsm.isFinal
  rw [Nat.and_one_is_mod, Nat.mod_mod_of_dvd _ (by norm_num : 2 ∣ 256)]
  have hbit : ∀ x : Nat, x % 2 ≠ 0 ↔ x.testBit 0 = true := fun x => by rw [Nat.testBit_zero, decide_eq_true_iff]; omega
  rw [hbit, Nat.testBit_or, Nat.testBit_or]
  by_cases hf : q ∈ g.finals
  · simp [hf]
  · have h2 : ((g.tags q).getD 0).testBit 0 = false := by
      rcases h q hf with h | h <;> rw [h] <;> simp
    by_cases hd : q ∈ dead <;> simp [hf, h2, hd]

theorem getCount_eq_zero {g : Fsm} {q : Nat} : getCount g q = 0 ↔ q ∉ g.finals := by
  unfold getCount Fsm.isFinal
  by_cases h : q ∈ g.finals
  · simp only [h, decide_true, if_true, not_true, iff_false]
    split <;> simp_all
  · simp [h]

theorem upto_len (T : Tbl) (a : Nat → Nat) (n : Nat) (h : ∀ q < n, (T.acc q).length ≤ a q) : (T.upto n).length ≤ ((List.range n).map a).sum + n := by
  induction n with
  | zero => simp [Tbl.upto]
  | succ n ih =>
    have := ih fun q hq => h q (by omega)
    have h2 := h n (by omega)
    rw [Tbl.upto_succ, List.length_append, List.range_succ, List.map_append, List.sum_append]
    simp
    omega

/-- The scanner of a half-final automaton, tags or not. -/
theorem counter_repr {P : Policy} {base : Nat} {g : Fsm} (hP : P.Real) (h : g.Det) (ht : TagsEven g) (hal : base % 8 = 0)
    (hsp : base + bufSize P (ofHalfFinal P base g).m ≤ 2 ^ 64) (hn : g.size ≤ 900000) (hF : totalCount g + g.size < 2 ^ 32) :
    Repr P (ofHalfFinal P base g) (withCounts (tblOf g) (getCount g)) ∧ (ofHalfFinal P base g).empty = false := by
  have hlen : ((tblOf g).upto (tblOf g).n).length ≤ totalCount g + g.size := by
    refine upto_len _ _ _ fun q _ => ?_
    show (if tagOf g g.deadStates q &&& 1 ≠ 0 then [0] else []).length ≤ _
    by_cases hf : q ∈ g.finals
    · rw [if_pos ((tagOf_even ht _ q).2 hf)]
      have := mt getCount_eq_zero.1 (not_not.2 hf)
      simp; omega
    · rw [if_neg fun hx => hf ((tagOf_even ht _ q).1 hx)]; simp
  have hlen' : ((withCounts (tblOf g) (getCount g)).upto (tblOf g).n).length ≤ totalCount g + g.size := by
    refine upto_len _ _ _ fun q _ => ?_
    show (List.replicate (getCount g q) 0).length ≤ _
    simp
  unfold ofHalfFinal at hsp ⊢
  obtain ⟨s, hs⟩ : ∃ s, s = buildScanner P g (init P base g.size g.letters (totalCount g) g.initial 1) := ⟨_, rfl⟩
  obtain ⟨e1, e2, e3⟩ := buildScanner_m P base (totalCount g) g
  have hft : s.m.finalTableSize = totalCount g + g.size := by
    rw [hs, e3]
    show (totalCount g + g.size) % 2 ^ 32 = _
    exact Nat.mod_eq_of_lt (by omega)
  have hrest : (buildFinals P (getCount g) s).rest = s.rest := by
    unfold buildFinals
    rw [foldl_rest_fst]
    intro r q
    have hp : ∀ (r : Multi × Nat) v, (put P r v).1.rest = r.1.rest := fun _ _ => rfl
    rw [hp, foldl_rest_fst (fun r v => hp r v)]
    rfl
  rw [← hs] at hsp ⊢
  have hm : (buildFinals P (getCount g) s).m = s.m := congrArg Prod.fst hrest
  rw [hm, hs] at hsp
  have hfits := fits_of (F := totalCount g) hP h.wf h.all hal hsp hn
  obtain ⟨r1, r2, r3⟩ := buildScanner_repr (P := P) (base := base) hP h hlen (by omega) hfits
  rw [← hs] at r1 r2 r3
  have := buildFinals_repr (count := getCount g) hP r1 (by rw [hft]; omega) (by rw [hft]; exact hlen')
  exact ⟨this.1, by rw [(m_of_rest hrest).2.2]; exact r2⟩

/-- What has been counted after a word. -/
theorem counter_total {P : Policy} {base : Nat} {g : Fsm} (hP : P.Real) (h : g.Det) (ht : TagsEven g) (hal : base % 8 = 0)
    (hsp : base + bufSize P (ofHalfFinal P base g).m ≤ 2 ^ 64) (hn : g.size ≤ 900000) (hF : totalCount g + g.size < 2 ^ 32)
    {w : List Nat} (hw : IsWord w) :
    ((HalfFinal.scn P (ofHalfFinal P base g)).after (HalfFinal.scn P (ofHalfFinal P base g)).initial w).matched 0 =
      (w.inits.map (weight g)).sum % 2 ^ 64 ∧
    ((HalfFinal.scn P (ofHalfFinal P base g)).dead ((HalfFinal.scn P (ofHalfFinal P base g)).after (HalfFinal.scn P (ofHalfFinal P base g)).initial w) = true ↔
      tagOf g g.deadStates ((tblOf g).after g.initial w) &&& 2 ≠ 0) := by
  obtain ⟨hR, -⟩ := counter_repr hP h ht hal hsp hn hF
  generalize ofHalfFinal P base g = s at *
  have hi : (s.scn P).initial = s.indexToState P g.initial := hR.toCore.initial
  have hwf := hR.toCore.wf
  have ha : ∀ u, IsWord u → (s.scn P).after (s.scn P).initial u = s.indexToState P ((tblOf g).after g.initial u) := by
    intro u hu
    rw [hi]
    exact hR.toCore.after_eq hwf.q0_lt hu
  have hlt : ∀ u, IsWord u → (tblOf g).after g.initial u < (withCounts (tblOf g) (getCount g)).n := fun u hu => hwf.after_lt hwf.q0_lt hu
  constructor
  · rw [(run_spec w).2]
    congr 1
    unfold HalfFinal.total
    refine congrArg List.sum (List.map_congr_left fun u hu => ?_)
    have hu' : IsWord u := fun c hc => hw c (((List.mem_inits _ _).1 hu).subset hc)
    unfold ids
    rw [ha u hu', hR.toCore.final_eq (hlt u hu'), hR.toCore.acceptedRegexps_eq (hlt u hu')]
    unfold weight
    generalize (tblOf g).after g.initial u = q
    show (if (tagOf g g.deadStates q &&& 1 != 0) = true then List.replicate (getCount g q) 0 else []).count 0 = _
    by_cases hf : q ∈ g.finals
    · rw [if_pos (by rw [bne_iff_ne]; exact (tagOf_even ht _ q).2 hf)]; simp
    · rw [if_neg (by rw [bne_iff_ne]; exact fun hx => hf ((tagOf_even ht _ q).1 hx)), getCount_eq_zero.2 hf]; rfl
  · show (s.scn P).dead ((HalfFinal.scn P s).after (HalfFinal.scn P s).initial w).st = true ↔ _
    rw [(run_spec w).1, ha w hw, hR.toCore.dead_eq (hlt w hw), bne_iff_ne]
    rfl

/-- `RemoveDeadEnds` does nothing to the scanner if there is nothing to remove. -/
theorem ofHalfFinal_removeDeadEnds {P : Policy} {base : Nat} {g : Fsm} (hd : g.deadStates = ∅) : ofHalfFinal P base g.removeDeadEnds = ofHalfFinal P base g := by
  have e : g.removeDeadEnds = g.clearHints := by
    unfold removeDeadEnds
    rw [hd, elems_empty]; rfl
  rw [e]
  have hb : ∀ s, buildScanner P g.clearHints s = buildScanner P g s := fun s => buildScanner_congr rfl rfl rfl rfl rfl (fun _ _ _ => rfl) s
  unfold ofHalfFinal
  rw [hb]
  rfl

/-- The buffer of a counter fits. -/
theorem counter_fits' {P : Policy} {base : Nat} {g : Fsm} (hP : P.Real) (h : g.Det) (hn : g.size ≤ 200001) (hb : base ≤ 2 ^ 63) :
    base + bufSize P (ofHalfFinal P base g).m ≤ 2 ^ 64 := by
  have hl := AllLetters.size_le h.wf.let_wf h.all
  obtain ⟨e1, e2, e3⟩ := buildScanner_m P base (totalCount g) g
  have hm : (ofHalfFinal P base g).m = (buildScanner P g (init P base g.size g.letters (totalCount g) g.initial 1)).m := by
    unfold ofHalfFinal
    have hrest : ∀ s : Multi, (buildFinals P (getCount g) s).rest = s.rest := by
      intro s
      unfold buildFinals
      rw [foldl_rest_fst]
      intro r q
      have hp : ∀ (r : Multi × Nat) v, (put P r v).1.rest = r.1.rest := fun _ _ => rfl
      rw [hp, foldl_rest_fst (fun r v => hp r v)]
      rfl
    exact congrArg Prod.fst (hrest _)
  rw [hm]
  have c1 : (buildScanner P g (init P base g.size g.letters (totalCount g) g.initial 1)).m.statesCount ≤ 200001 := by
    rw [e1]; show g.size % 2 ^ 32 ≤ _; rw [Nat.mod_eq_of_lt (by omega)]; exact hn
  have c2 : (buildScanner P g (init P base g.size g.letters (totalCount g) g.initial 1)).m.lettersCount ≤ 264 := by
    rw [e2]; show g.letters.size % 2 ^ 32 ≤ _; rw [Nat.mod_eq_of_lt (by omega)]; exact hl
  have c3 : (buildScanner P g (init P base g.size g.letters (totalCount g) g.initial 1)).m.finalTableSize < 2 ^ 32 := by
    rw [e3]; show (totalCount g + g.size) % 2 ^ 32 < _; exact Nat.mod_lt _ (by norm_num)
  generalize (buildScanner P g (init P base g.size g.letters (totalCount g) g.initial 1)).m = m at *
  have hr := Nat.mul_le_mul (rowBytes_le hP c2) c1
  have e : rowSize P m * m.statesCount * P.reloc.tsz = rowBytes P m * m.statesCount := by
    unfold rowBytes; ring
  have hM : MaxChar = 264 := rfl
  unfold bufSize Scn.alignUp
  rw [e]
  omega

end

/-! ### Nothing is dead -/

variable {f : Fsm} {L : Language Nat} {st : List Nat → Option Nat}

theorem tokens_pos {v : List Nat} (h0 : [] ∉ L) (hv : v ∈ L) : 0 < tokens L v := by
  have hne : v ≠ [] := fun e => h0 (e ▸ hv)
  have hh : Hit L v := ⟨v.length, List.length_pos_iff.2 hne, Nat.le_refl _, by rw [List.take_length]; exact hv⟩
  have := later_eq (L := L) (x := v)
  rw [if_pos hh] at this
  omega

/-- From every state something can still be counted. -/
theorem alive (hs : Sim f L st) {D : Nat} (hC : Cond f L st D) {v : List Nat} (hv : v ∈ L) (hp : Plain v) {u : List Nat} (hu : IsWord u) :
    ∃ z, IsWord z ∧ (after f D (u ++ z)).toAdd ≠ 0 := by
  by_contra hno
  have hz : ∀ z, IsWord z → (after f D (u ++ z)).toAdd = 0 := fun z hz => by
    by_contra h; exact hno ⟨z, hz, h⟩
  obtain ⟨⟨w, A, xs, hx⟩, -⟩ := reach_inv hs hC hu
  have hE : IsLetter EndMark := by decide
  have h1 : ∃ t, after f D (u ++ [EndMark]) = fresh f t := by rw [after_snoc]; exact ⟨_, end_spec hs hC hx⟩
  have key : ∀ x : List Nat, Plain x → ∃ ys, Inv L st x 0 (after f D (u ++ [EndMark] ++ x)) ys := by
    intro x
    induction x using List.reverseRecOn with
    | nil =>
      intro _
      obtain ⟨t, ht⟩ := h1
      rw [List.append_nil, ht]
      exact ⟨_, fresh_inv hs t⟩
    | append_singleton x c ih =>
      intro hxp
      obtain ⟨p1, p2, p3⟩ := plain_snoc hxp
      obtain ⟨ys, hy⟩ := ih p1
      obtain ⟨zs, hzs⟩ := next_spec hs hC hy p2 p3
      have h0 : (next f D (after f D (u ++ [EndMark] ++ x)) c).toAdd = 0 := by
        rw [← after_snoc, List.append_assoc, List.append_assoc]
        refine hz _ fun y hy => ?_
        rcases List.mem_append.1 hy with hy | hy
        · rw [List.mem_singleton.1 hy]; exact hE
        · exact hxp.1 y hy
      rw [h0] at hzs
      exact ⟨zs, by rw [← List.append_assoc, after_snoc]; exact hzs⟩
  obtain ⟨ys, hy⟩ := key v hp
  have h2 := end_spec hs hC hy
  rw [← after_snoc] at h2
  have h3 : (after f D (u ++ [EndMark] ++ v ++ [EndMark])).toAdd = tokens L v := by rw [h2]; rfl
  have h4 := tokens_pos hC.nil hv
  have h5 : (after f D (u ++ [EndMark] ++ v ++ [EndMark])).toAdd = 0 := by
    rw [List.append_assoc, List.append_assoc]
    refine hz _ fun y hy => ?_
    rcases List.mem_append.1 hy with hy | hy
    · rw [List.mem_singleton.1 hy]; exact hE
    · rcases List.mem_append.1 hy with hy | hy
      · exact hp.1 y hy
      · rw [List.mem_singleton.1 hy]; exact hE
  omega

/-! ### Simplification -/

/-- Only final states are tagged. -/
def TagsFinal (g : Fsm) : Prop := ∀ q, g.tags q ≠ none → q ∈ g.finals

theorem TagsFinal.even {g : Fsm} (h : TagsFinal g) : TagsEven g := fun q hq => Or.inl (by by_contra hx; exact hq (h q hx))

theorem tagsFinal_minimize {g : Fsm} (h : g.Det) (ht : TagsFinal g) : TagsFinal g.minimize := by
  have hm := h.minSpec
  intro k hk
  unfold Fsm.minimize at hk ⊢
  rw [if_pos h.flag] at hk ⊢
  simp only at hk ⊢
  generalize (g.minTask.run g.minCls g.minClasses).cls = cls at hk hm ⊢
  generalize (g.minTask.run g.minCls g.minClasses).classes = n at hk hm ⊢
  have h1 : ∃ q < g.size, cls q = k ∧ g.tags q ≠ none := by
    have gen : ∀ (l : List Nat) (ts : Nat → Option Nat), (∀ q ∈ l, q < g.size) →
        (l.foldl (fun ts q => match g.tags q with
          | none => ts
          | some t => Function.update ts (cls q) (some ((ts (cls q)).getD 0 ||| t))) ts) k ≠ none → ts k ≠ none ∨ ∃ q < g.size, cls q = k ∧ g.tags q ≠ none := by
      intro l
      induction l with
      | nil => intro ts _ h; exact Or.inl h
      | cons q l ih =>
        intro ts hl hne
        rw [List.foldl_cons] at hne
        rcases ih _ (fun q hq => hl q (List.mem_cons_of_mem _ hq)) hne with h | h
        · cases htq : g.tags q with
          | none => simp only [htq] at h; exact Or.inl h
          | some t =>
            simp only [htq] at h
            by_cases hk' : k = cls q
            · exact Or.inr ⟨q, hl q List.mem_cons_self, hk'.symm, by rw [htq]; simp⟩
            · rw [Function.update_of_ne hk'] at h; exact Or.inl h
        · exact Or.inr h
    rcases gen (List.range g.size) _ (fun q hq => List.mem_range.1 hq) hk with h | h
    · exfalso
      apply h
      rw [connectAll_tags]; rfl
    · exact h
  obtain ⟨q, hq, rfl, htq⟩ := h1
  have hf := ht q htq
  show cls q ∈ (List.range g.size).foldl (fun s q => if g.isFinal q then insert (cls q) s else s) _
  have gen : ∀ (l : List Nat) (s : Finset Nat), q ∈ l → cls q ∈ l.foldl (fun s q => if g.isFinal q then insert (cls q) s else s) s := by
    have keep : ∀ (l : List Nat) (s : Finset Nat), cls q ∈ s → cls q ∈ l.foldl (fun s q => if g.isFinal q then insert (cls q) s else s) s := by
      intro l
      induction l with
      | nil => intro s h; exact h
      | cons x l ih =>
        intro s h
        rw [List.foldl_cons]
        apply ih
        split
        · exact Finset.mem_insert_of_mem h
        · exact h
    intro l
    induction l with
    | nil => intro s h; cases h
    | cons x l ih =>
      intro s h
      rw [List.foldl_cons]
      rcases List.mem_cons.1 h with rfl | h
      · apply keep
        rw [if_pos (by rw [Fsm.isFinal, decide_eq_true_iff]; exact hf)]
        exact Finset.mem_insert_self ..
      · exact ih _ h
  exact gen _ _ (List.mem_range.2 hq)

/-! ### Assembly -/

theorem Built.swap {d : Fsm} {D : Nat} {b : Fsm} (h : Built d D b) (f : Fsm) : Built d D (Fsm.swapFrom f b) := by
  refine ⟨h.det.swapFrom, h.size, h.letters, h.isAlt, ?_, ?_⟩
  · intro u q hu hr
    rw [swapFrom_edge] at hr
    exact h.state u q hu hr
  · intro q hq
    obtain ⟨u, h1, h2⟩ := h.reach q hq
    exact ⟨u, h1, by rw [swapFrom_edge]; exact h2⟩

theorem Built.tagsFinal {d : Fsm} {D : Nat} {b : Fsm} (h : Built d D b) (hout : ∀ q, b.size ≤ q → b.tags q = none) : TagsFinal b := by
  intro q hq
  by_cases hlt : q < b.size
  · obtain ⟨u, h1, h2⟩ := h.reach q hlt
    obtain ⟨h3, h4⟩ := h.state u q h1 h2
    rw [h3]
    intro h0
    rw [h0] at h4
    exact hq (by rw [h4]; simp)
  · exact absurd (hout q (by omega)) hq

theorem Built.run {d : Fsm} {D : Nat} {b : Fsm} (h : Built d D b) {u : List Nat} (hu : IsWord u) : Run b.Edge b.initial u ((tblOf b).after b.initial u) :=
  (tblOf_run h.det hu h.det.wf.init_lt _).2 rfl

theorem Built.weight {d : Fsm} {D : Nat} {b : Fsm} (h : Built d D b) {u : List Nat} (hu : IsWord u) : weight b u = (after d D u).toAdd := by
  obtain ⟨h1, h2⟩ := h.state u _ hu (h.run hu)
  unfold Greedy.weight getCount Fsm.isFinal
  rw [h2]
  by_cases h0 : (after d D u).toAdd = 0
  · rw [if_neg (by simpa [h0] using h1), h0]
  · rw [if_pos (by simpa [h0] using h1), if_pos h0]; simp [h0]

theorem Built.getCount_le {d : Fsm} {D : Nat} {b : Fsm} (h : Built d D b) (hle : ∀ u, IsWord u → (after d D u).toAdd ≤ D) {q : Nat} (hq : q < b.size) : getCount b q ≤ D := by
  obtain ⟨u, h1, h2⟩ := h.reach q hq
  have h3 := h.weight h1
  unfold Greedy.weight at h3
  rw [h.det.run_unique h2 (h.run h1), h3]
  exact hle u h1

theorem totalCount_le {b : Fsm} {D : Nat} (h : ∀ q < b.size, getCount b q ≤ D) : totalCount b ≤ b.size * D := by
  unfold totalCount
  have : ∀ n, n ≤ b.size → ((List.range n).map (getCount b)).sum ≤ n * D := by
    intro n
    induction n with
    | zero => intro _; simp
    | succ n ih =>
      intro hn
      have h1 := ih (by omega)
      have h2 := h n (by omega)
      rw [List.range_succ, List.map_append, List.sum_append]
      simp
      rw [Nat.add_mul, Nat.one_mul]
      omega
  exact this _ le_rfl

theorem Built.no_dead {d : Fsm} {D : Nat} {b : Fsm} (h : Built d D b) (hal : ∀ u, IsWord u → ∃ z, IsWord z ∧ (after d D (u ++ z)).toAdd ≠ 0) : b.deadStates = ∅ := by
  rw [Finset.eq_empty_iff_forall_notMem]
  intro q hq
  obtain ⟨hlt, hd⟩ := (mem_deadStates h.det.wf h.det.coh q).1 hq
  obtain ⟨u, h1, h2⟩ := h.reach q hlt
  rcases hd with hd | hd
  · exact hd ⟨u, h2⟩
  · apply hd
    obtain ⟨z, hz, hne⟩ := hal u h1
    obtain ⟨p, hp, hr⟩ := h.det.exists_run hz hlt
    have hw : IsWord (u ++ z) := fun c hc => (List.mem_append.1 hc).elim (h1 c) (hz c)
    exact ⟨z, p, ((h.state (u ++ z) p hw (h2.trans hr)).1).2 hne, hr⟩

variable {P : Policy} {base : Nat}

/-- The counter of `MakeGreedyCounter(false)`, if its states may still count something. -/
theorem full_counter' {d b : Fsm} {D : Nat} (hP : P.Real) (hD : D ≤ 1000) (hle : ∀ u, IsWord u → (after d D u).toAdd ≤ D)
    (hlive : ∀ u, IsWord u → ∃ z, IsWord z ∧ (after d D (u ++ z)).toAdd ≠ 0)
    (hb : Built d D b) (hout : ∀ q, b.size ≤ q → b.tags q = none) (hal : base % 8 = 0) (hbase : base ≤ 2 ^ 63) {w : List Nat} (hw : IsWord w) :
    ((HalfFinal.scn P (ofHalfFinal P base b.removeDeadEnds)).after (HalfFinal.scn P (ofHalfFinal P base b.removeDeadEnds)).initial w).matched 0 = sumAdd d D w % 2 ^ 64 ∧
    ((HalfFinal.scn P (ofHalfFinal P base b.removeDeadEnds)).dead
      ((HalfFinal.scn P (ofHalfFinal P base b.removeDeadEnds)).after (HalfFinal.scn P (ofHalfFinal P base b.removeDeadEnds)).initial w) = true ↔
      (after d D w).toAdd.testBit 1 = true) := by
  have ht := totalCount_le (b := b) (D := D) fun q hq => hb.getCount_le hle hq
  have hsz := hb.size
  have hF : totalCount b + b.size < 2 ^ 32 := by
    have : b.size * D ≤ 200001 * 1000 := Nat.mul_le_mul hsz hD
    omega
  have hdead := hb.no_dead hlive
  rw [ofHalfFinal_removeDeadEnds hdead]
  obtain ⟨c1, c2⟩ := counter_total hP hb.det (hb.tagsFinal hout).even hal (counter_fits' hP hb.det hsz hbase) (by omega) hF hw
  refine ⟨?_, ?_⟩
  · rw [c1]
    congr 1
    unfold sumAdd
    refine congrArg List.sum (List.map_congr_left fun u hu => ?_)
    exact hb.weight fun c hc => hw c (((List.mem_inits _ _).1 hu).subset hc)
  · rw [c2, hdead]
    obtain ⟨-, h2⟩ := hb.state w _ hw (hb.run hw)
    have hbit : ∀ x : Nat, x &&& 2 ≠ 0 ↔ x.testBit 1 = true := fun x => by
      rw [show (2 : Nat) = 2 ^ 1 from rfl, Nat.and_two_pow]
      cases x.testBit 1 <;> simp
    rw [hbit]
    unfold Multi.tagOf
    rw [show (256 : Nat) = 2 ^ 8 from rfl, Nat.testBit_mod_two_pow, Nat.testBit_or, Nat.testBit_or, h2]
    generalize (tblOf b).after b.initial w = q
    have h11 : Nat.testBit 1 1 = false := rfl
    by_cases h0 : (after d D w).toAdd = 0
    · by_cases hf : b.isFinal q = true <;> simp [h0, hf, h11]
    · by_cases hf : b.isFinal q = true <;> simp [h0, hf, h11]

/-- The counter of `MakeGreedyCounter(false)`. -/
theorem full_counter {d b : Fsm} {D : Nat} (hP : P.Real) (hs : Sim d L st) (hC : Cond d L st D) (hD : D ≤ 1000) {v : List Nat} (hv : v ∈ L) (hp : Plain v)
    (hb : Built d D b) (hout : ∀ q, b.size ≤ q → b.tags q = none) (hal : base % 8 = 0) (hbase : base ≤ 2 ^ 63) {w : List Nat} (hw : IsWord w) :
    ((HalfFinal.scn P (ofHalfFinal P base b.removeDeadEnds)).after (HalfFinal.scn P (ofHalfFinal P base b.removeDeadEnds)).initial w).matched 0 = sumAdd d D w % 2 ^ 64 :=
  (full_counter' hP hD (fun _ hu => (reach_inv hs hC hu).2) (fun _ hu => alive hs hC hv hp hu) hb hout hal hbase hw).1

/-- The counter of `MakeGreedyCounter(true)`, if its states may still count something. -/
theorem simple_counter' {d b : Fsm} (hP : P.Real) (hle : ∀ u, IsWord u → (after d 1 u).toAdd ≤ 1)
    (hlive : ∀ u, IsWord u → ∃ z, IsWord z ∧ (after d 1 (u ++ z)).toAdd ≠ 0)
    (hb : Built d 1 b) (hout : ∀ q, b.size ≤ q → b.tags q = none) (hal : base % 8 = 0) (hbase : base ≤ 2 ^ 63) {w : List Nat} (hw : IsWord w) :
    ((HalfFinal.scn P (ofHalfFinal P base b.minimize.removeDeadEnds)).after (HalfFinal.scn P (ofHalfFinal P base b.minimize.removeDeadEnds)).initial w).matched 0 = sumAdd d 1 w % 2 ^ 64 ∧
    (HalfFinal.scn P (ofHalfFinal P base b.minimize.removeDeadEnds)).dead
      ((HalfFinal.scn P (ofHalfFinal P base b.minimize.removeDeadEnds)).after (HalfFinal.scn P (ofHalfFinal P base b.minimize.removeDeadEnds)).initial w) = false := by
  obtain ⟨m1, m2, m3, -, -, -, ⟨cls, m4, m5, m6⟩, -⟩ := hb.det.minimize
  have htf := tagsFinal_minimize hb.det (hb.tagsFinal hout)
  have hti : b.minimize.TagsIn (fun t => t = 0 ∨ t = 1) := by
    refine TagsIn.minimize (fun a b ha hb => ?_) ?_
    · rcases ha with rfl | rfl <;> rcases hb with rfl | rfl <;> decide
    · intro q t hq
      by_cases hlt : q < b.size
      · obtain ⟨u, h1, h2⟩ := hb.reach q hlt
        obtain ⟨-, h4⟩ := hb.state u q h1 h2
        have := hle u h1
        rw [hq] at h4
        split at h4
        · cases h4; omega
        · cases h4
      · rw [hout q (by omega)] at hq; cases hq
  have hgc : ∀ q, getCount b.minimize q = if q ∈ b.minimize.finals then 1 else 0 := by
    intro q
    unfold getCount Fsm.isFinal
    by_cases hf : q ∈ b.minimize.finals
    · rw [if_pos (by simpa using hf), if_pos hf]
      cases hq : b.minimize.tags q with
      | none => rfl
      | some t => rcases hti q t hq with rfl | rfl <;> rfl
    · rw [if_neg (by simpa using hf), if_neg hf]
  have hfin : ∀ u, IsWord u → ((tblOf b.minimize).after b.minimize.initial u ∈ b.minimize.finals ↔ (after d 1 u).toAdd ≠ 0) := by
    intro u hu
    have r1 := (tblOf_run m1 hu m1.wf.init_lt _).2 rfl
    have r2 := hb.run hu
    rw [← (hb.state u _ hu r2).1]
    have e1 : u ∈ b.minimize.Lang ↔ (tblOf b.minimize).after b.minimize.initial u ∈ b.minimize.finals := by
      constructor
      · rintro ⟨p, hp, hr⟩; rw [m1.run_unique r1 hr]; exact hp
      · intro h; exact ⟨_, h, r1⟩
    have e2 : u ∈ b.Lang ↔ (tblOf b).after b.initial u ∈ b.finals := by
      constructor
      · rintro ⟨p, hp, hr⟩; rw [hb.det.run_unique r2 hr]; exact hp
      · intro h; exact ⟨_, h, r2⟩
    rw [← e1, ← e2, m2]
  have hsz := hb.size
  have ht := totalCount_le (b := b.minimize) (D := 1) fun q _ => by rw [hgc]; split <;> omega
  have hF : totalCount b.minimize + b.minimize.size < 2 ^ 32 := by omega
  have hdead : b.minimize.deadStates = ∅ := by
    rw [Finset.eq_empty_iff_forall_notMem]
    intro k hk
    obtain ⟨hlt, hd⟩ := (mem_deadStates m1.wf m1.coh k).1 hk
    have hbd := hb.no_dead hlive
    rcases hd with hd | hd
    · exact hd ⟨_, ((minimize_reach hb.det hb.reach) k hlt).choose_spec.2⟩
    · obtain ⟨q, hq, rfl⟩ := m5 k hlt
      rw [(m4 q hq).2] at hd
      have : q ∈ b.deadStates := (mem_deadStates hb.det.wf hb.det.coh q).2 ⟨hq, Or.inr hd⟩
      rw [hbd] at this
      simp at this
  rw [ofHalfFinal_removeDeadEnds hdead]
  obtain ⟨c1, c2⟩ := counter_total hP m1 htf.even hal (counter_fits' hP m1 (by omega) hbase) (by omega) hF hw
  refine ⟨?_, ?_⟩
  · rw [c1]
    congr 1
    unfold sumAdd
    refine congrArg List.sum (List.map_congr_left fun u hu => ?_)
    have hu' : IsWord u := fun c hc => hw c (((List.mem_inits _ _).1 hu).subset hc)
    have h1 := hfin u hu'
    have h2 := hle u hu'
    unfold Greedy.weight
    rw [hgc]
    by_cases h0 : (after d 1 u).toAdd = 0
    · rw [if_neg (by simpa [h0] using h1), h0]
    · rw [if_pos (h1.2 h0)]; omega
  · rw [← Bool.not_eq_true, c2, hdead, not_not]
    unfold Multi.tagOf
    generalize (tblOf b.minimize).after b.minimize.initial w = q
    have : (b.minimize.tags q).getD 0 = 0 ∨ (b.minimize.tags q).getD 0 = 1 := by
      cases hq : b.minimize.tags q with
      | none => exact Or.inl rfl
      | some t => exact hti q t hq
    rcases this with h | h <;> rw [h] <;> by_cases hf : b.minimize.isFinal q = true <;> simp [hf]

/-- The counter of `MakeGreedyCounter(true)`. -/
theorem simple_counter {d b : Fsm} (hP : P.Real) (hs : Sim d L st) (hC : Cond d L st 1) {v : List Nat} (hv : v ∈ L) (hp : Plain v)
    (hb : Built d 1 b) (hout : ∀ q, b.size ≤ q → b.tags q = none) (hal : base % 8 = 0) (hbase : base ≤ 2 ^ 63) {w : List Nat} (hw : IsWord w) :
    ((HalfFinal.scn P (ofHalfFinal P base b.minimize.removeDeadEnds)).after (HalfFinal.scn P (ofHalfFinal P base b.minimize.removeDeadEnds)).initial w).matched 0 = sumAdd d 1 w % 2 ^ 64 ∧
    (HalfFinal.scn P (ofHalfFinal P base b.minimize.removeDeadEnds)).dead
      ((HalfFinal.scn P (ofHalfFinal P base b.minimize.removeDeadEnds)).after (HalfFinal.scn P (ofHalfFinal P base b.minimize.removeDeadEnds)).initial w) = false :=
  simple_counter' hP (fun _ hu => (reach_inv hs hC hu).2) (fun _ hu => alive hs hC hv hp hu) hb hout hal hbase hw

end Greedy
end Pire
