import Verif.Props.Glue

/-!
# C26: when gluing fails

The failure of `Glue`, in terms of the languages only.
-/

namespace Pire.Props

open Pire Pire.Spec Pire.Scn Pire.Multi Pire.Fsm

/-- No continuation tells the words `u` and `v` apart. -/
def SameRests (Ls : List (Language Nat)) (u v : List Nat) : Prop := ∀ L ∈ Ls, ∀ z, IsWord z → (u ++ z ∈ L ↔ v ++ z ∈ L)

/-- There are `n + 2` words any two of which are told apart by some continuation. -/
def ManyRests (Ls : List (Language Nat)) (n : Nat) : Prop :=
  ∃ ws : List (List Nat), (∀ w ∈ ws, IsWord w) ∧ ws.Pairwise (fun u v => ¬ SameRests Ls u v) ∧ ws.length = n + 2

/-- Words that no continuation tells apart lead to the same state. -/
def Reduced (P : Policy) (s : Multi) (Ls : List (Language Nat)) : Prop :=
  ∀ u v, IsWord u → IsWord v → SameRests Ls u v → (s.scn P).after (s.scn P).initial u = (s.scn P).after (s.scn P).initial v

section
variable {P : Policy} {a b s nul : Multi} {As Bs Ls : List (Language Nat)} {base base' maxSize : Nat} {ownA ownB : Bool}

/-- The other direction holds for every scanner. -/
theorem same_state_same_rests (h : Recognizes P s Ls) {u v : List Nat} (hu : IsWord u) (hv : IsWord v)
    (e : (s.scn P).after (s.scn P).initial u = (s.scn P).after (s.scn P).initial v) : SameRests Ls u v := by
  classical
  intro L hL z hz
  have ha : ∀ w, (s.scn P).after (s.scn P).initial (w ++ z) = (s.scn P).after ((s.scn P).after (s.scn P).initial w) z := fun w => List.foldl_append ..
  have hw : ∀ {w}, IsWord w → IsWord (w ++ z) := fun hw c hc => (List.mem_append.1 hc).elim (hw c) (hz c)
  have e2 : hits Ls (u ++ z) = hits Ls (v ++ z) := by
    rw [← h.accepted _ (hw hu), ← h.accepted _ (hw hv), ha, ha, e]
  obtain ⟨i, hi, rfl⟩ := List.mem_iff_getElem.1 hL
  have := congrArg (i ∈ ·) e2
  simp only [hits, List.mem_filter, List.mem_range, hi, true_and, decide_eq_true_eq, List.getD_eq_getElem?_getD, List.getElem?_eq_getElem hi,
    Option.getD_some, eq_iff_iff] at this
  exact this

theorem Repr.after {T : Tbl} (h : Multi.Repr P s T) {u : List Nat} (hu : IsWord u) :
    (s.scn P).after (s.scn P).initial u = s.indexToState P (T.after T.q0 u) := by
  have : (s.scn P).initial = s.indexToState P T.q0 := h.initial
  rw [this, h.toCore.after_eq h.wf.q0_lt hu]

theorem reduced_iff {T : Tbl} (h : Multi.Repr P s T) : Reduced P s Ls ↔ ∀ u v, IsWord u → IsWord v → SameRests Ls u v → T.after T.q0 u = T.after T.q0 v := by
  constructor
  · intro hr u v hu hv hs
    have := hr u v hu hv hs
    rw [Repr.after h hu, Repr.after h hv] at this
    simpa [stateIndex_indexToState] using congrArg (s.stateIndex P) this
  · intro hr u v hu hv hs
    rw [Repr.after h hu, Repr.after h hv, hr u v hu hv hs]

/-- A compiled scanner has no superfluous states. -/
theorem C26_compiled_reduced {f : Fsm} (hP : Typedef P) (h : f.Good) (ht : f.TagsClean) (hs : compile P base f = some s) (hb : Placed P base f s) :
    Reduced P s [f.Lang] := by
  obtain ⟨g, hg, r1, hd, htg, hL, r2, r3⟩ := compile_repr hP.real h ht hs hb.align hb.space hb.small
  obtain ⟨-, -, -, hmin⟩ := canonize_spec h hg
  rw [reduced_iff r1]
  intro u v hu hv hs
  have hi := hd.wf.init_lt
  have key : ∀ {w z}, IsWord w → IsWord z → (z ∈ g.LangFrom ((tblOf g).after (tblOf g).q0 w) ↔ w ++ z ∈ g.Lang) := by
    intro w z hw hz
    have hwz : IsWord (w ++ z) := fun c hc => (List.mem_append.1 hc).elim (hw c) (hz c)
    have hq : (tblOf g).after (tblOf g).q0 w < g.size := (tblOf_wf hd).after_lt hi hw
    have ea : (tblOf g).after g.initial (w ++ z) = (tblOf g).after ((tblOf g).after (tblOf g).q0 w) z := List.foldl_append ..
    constructor
    · rintro ⟨p, hp, hr⟩
      rw [tblOf_run hd hz hq] at hr
      exact ⟨p, hp, (tblOf_run hd hwz hi p).2 (by rw [ea, hr])⟩
    · rintro ⟨p, hp, hr⟩
      rw [tblOf_run hd hwz hi] at hr
      exact ⟨p, hp, (tblOf_run hd hz hq p).2 (by rw [hr, ea])⟩
  refine hmin _ ((tblOf_wf hd).after_lt hi hu) _ ((tblOf_wf hd).after_lt hi hv) ?_
  ext z
  by_cases hz : IsWord z
  · refine (key hu hz).trans (Iff.trans ?_ (key hv hz).symm)
    rw [hL]
    exact hs _ (by simp) z hz
  · exact ⟨fun h => absurd (hd.wf.lang_word h) hz, fun h => absurd (hd.wf.lang_word h) hz⟩

/-- Neither has a copy. -/
theorem C26_copy_reduced {own : Bool} (hP : Typedef P) (hv : Valid P a) (ha : Reduced P a As) (ho : own = true → a.empty = false ∧ Fits P base' a.m) :
    Reduced P (copyCtor P own base' a) As := by
  unfold copyCtor
  cases own with
  | false => exact ha
  | true =>
    obtain ⟨he, hf⟩ := ho rfl
    obtain ⟨e1, e2, e3, -⟩ := deepCopy_m P P base' a
    obtain ⟨T, hT⟩ := hv
    have hc := deepCopy_repr hP.real hP.real rfl hT (hf.congr e1 e2 e3)
    exact (reduced_iff hc).2 ((reduced_iff hT).1 ha)

theorem pair_of_rests (ha : Reduced P a As) (hb : Reduced P b Bs) {u v : List Nat} (hu : IsWord u) (hv : IsWord v) (hs : SameRests (As ++ Bs) u v) :
    pairAfter P a b u = pairAfter P a b v := by
  unfold pairAfter
  rw [ha u v hu hv fun L hL => hs L (by simp [hL]), hb u v hu hv fun L hL => hs L (by simp [hL])]

/-- Neither has a scanner glued from two that have none. -/
theorem C26_glued_reduced (hP : Typedef P) (hva : Valid P a) (hvb : Valid P b) (ha : Recognizes P a As) (hb : Recognizes P b Bs)
    (hroom : GlueRoom P a b ownA ownB As Bs base base' maxSize) (ra : Reduced P a As) (rb : Reduced P b Bs)
    (hs : glue P nul ownA ownB base base' a b maxSize = .ok s) 
    (hfew : ¬ (a.empty = false ∧ b.empty = false ∧ TooManyPairs P a b (glueLimit maxSize))) :
    Reduced P s (As ++ Bs) := by
  obtain ⟨s', e1, e2, -⟩ := C26_glue (nul := nul) hP hva hvb ha hb hroom
  rw [hs] at e1
  cases e1
  obtain ⟨Ts, hTs⟩ := (e2 hfew).1
  unfold glue at hs
  by_cases hea : a.empty = true
  · rw [if_pos hea] at hs
    have hA : As = [] := by
      have := ha.count
      unfold regexpsCount at this
      rw [hea, if_pos rfl] at this
      exact List.length_eq_zero_iff.1 this.symm
    subst hA
    cases hs
    exact C26_copy_reduced hP hvb rb hroom.ownB
  rw [if_neg hea] at hs
  by_cases heb : b.empty = true
  · rw [if_pos heb] at hs
    have hB : Bs = [] := by
      have := hb.count
      unfold regexpsCount at this
      rw [heb, if_pos rfl] at this
      exact List.length_eq_zero_iff.1 this.symm
    subst hB
    cases hs
    rw [List.append_nil]
    exact C26_copy_reduced hP hva ra hroom.ownA
  rw [if_neg heb] at hs
  have hlim : (if maxSize ≠ 0 then maxSize else 80000) = glueLimit maxSize := rfl
  have htab : glueTableSize = 256 * 1024 := rfl
  rw [hlim, htab, DTask.runT_eq _ hroom.table] at hs
  obtain ⟨r1, r2⟩ := DTask.run_spec (t := glueTask P a b) (glueLetters_wf P a b) (glueLimit maxSize)
  cases hrun : (glueTask P a b).run (glueLimit maxSize) with
  | none =>
    exact absurd ⟨by simpa using hea, by simpa using heb, (tooMany_iff _).1 (r2.1 hrun)⟩ hfew
  | some r =>
    obtain ⟨states, conns⟩ := r
    rw [hrun] at hs
    cases hs
    have hr := r1 _ _ hrun
    have hlen := hr.len
    have htable := hroom.table
    have hfin := hroom.finals
    have hmul : (As.length + Bs.length + 1) * states.length ≤ (As.length + Bs.length + 1) * (glueLimit maxSize + 1) :=
      Nat.mul_le_mul_left _ hlen
    have hmul1 : (As.length + Bs.length + 1) * 1 ≤ (As.length + Bs.length + 1) * (glueLimit maxSize + 1) :=
      Nat.mul_le_mul_left _ (by omega)
    obtain ⟨g1, g2, g3⟩ := glueBuild_repr hP.real hr ha hb (by omega) (by omega) (by omega) hroom.align hroom.space
    have hred : Reduced P (glueBuild P base a b states conns) (As ++ Bs) := by
      rw [reduced_iff g1]
      intro u v hu hv hsr
      have hi := glueTbl_after hr hu
      have hj := glueTbl_after hr hv
      rw [pair_of_rests ra rb hu hv hsr, ← hj] at hi
      obtain ⟨k1, -⟩ := List.getElem?_eq_some_iff.1 (glueTbl_after hr hu)
      exact (List.getElem?_inj k1 hr.nodup).1 hi
    refine C26_copy_reduced hP ⟨_, g1⟩ hred fun _ => ⟨g2, ?_⟩
    obtain ⟨e1, e2, e3, e4, -⟩ := deepCopy_m P P base' (glueBuild P base a b states conns)
    have hf := hTs.fits
    unfold copyCtor at hf
    rw [if_pos rfl] at hf
    exact e4 ▸ hf.congr e1.symm e2.symm e3.symm

/-- `Glue` of scanners made by the library fails exactly if more than `n + 1` words are told apart by the regexps. -/
theorem C26_fails_exactly (ha : Recognizes P a As) (hb : Recognizes P b Bs) (ra : Reduced P a As) (rb : Reduced P b Bs) (n : Nat) :
    TooManyPairs P a b n ↔ ManyRests (As ++ Bs) n := by
  constructor
  · rintro ⟨ws, h1, h2, h3⟩
    refine ⟨ws, h1, ?_, h3⟩
    rw [List.Nodup, List.pairwise_map] at h2
    refine h2.imp_of_mem fun {u v} hu hv hne hs => hne (pair_of_rests ra rb (h1 u hu) (h1 v hv) hs)
  · rintro ⟨ws, h1, h2, h3⟩
    refine ⟨ws, h1, ?_, h3⟩
    rw [List.Nodup, List.pairwise_map]
    refine h2.imp_of_mem fun {u v} hu hv hne he => hne ?_
    unfold pairAfter at he
    rw [Prod.mk.injEq] at he
    intro L hL
    rcases List.mem_append.1 hL with hL | hL
    · exact same_state_same_rests ha (h1 u hu) (h1 v hv) he.1 L hL
    · exact same_state_same_rests hb (h1 u hu) (h1 v hv) he.2 L hL

/-- The default-constructed scanner has no superfluous states. -/
theorem C26_empty_reduced (hP : Typedef P) (hn : Multi.null P base = some nul) (ha : base % 8 = 0) (hb : base ≤ 2 ^ 63) : Reduced P nul [] := by
  unfold Multi.null at hn
  rw [Option.map_eq_some_iff] at hn
  obtain ⟨s, hs, rfl⟩ := hn
  have hnd : Fsm.makeFalse.determined = false := rfl
  have htc : Fsm.makeFalse.TagsClean := by intro q t h; cases h
  have := C26_compiled_reduced hP Good.makeFalse htc hs ⟨ha, compile_bufSize hP.real Good.makeFalse hs hb hnd, by rw [hnd]; simp⟩
  intro u v hu hv _
  refine this u v hu hv ?_
  rw [lang_makeFalse]
  intro L hL z _
  rw [List.mem_singleton.1 hL]
  exact ⟨fun h => absurd h (Set.notMem_empty _), fun h => absurd h (Set.notMem_empty _)⟩

/-- `Glue` of scanners without superfluous states - all those that are compiled, copied or glued -, in terms of the languages: the result is a scanner for all regexps, again
without superfluous states, or the empty scanner; the latter exactly if neither argument is empty and there are too many words any two of which are told apart by the regexps. -/
theorem C26_by_languages (hP : Typedef P) (hva : Valid P a) (hvb : Valid P b) (ha : Recognizes P a As) (hb : Recognizes P b Bs)
    (hroom : GlueRoom P a b ownA ownB As Bs base base' maxSize) (ra : Reduced P a As) (rb : Reduced P b Bs) :
    ∃ s, glue P nul ownA ownB base base' a b maxSize = .ok s ∧
      (¬ (a.empty = false ∧ b.empty = false ∧ ManyRests (As ++ Bs) (glueLimit maxSize)) → Valid P s ∧ Recognizes P s (As ++ Bs) ∧ Reduced P s (As ++ Bs)) ∧
      (a.empty = false ∧ b.empty = false ∧ ManyRests (As ++ Bs) (glueLimit maxSize) → s = nul) := by
  have hiff := C26_fails_exactly ha hb ra rb (glueLimit maxSize)
  obtain ⟨s, e1, e2, e3⟩ := C26_glue (nul := nul) hP hva hvb ha hb hroom
  rw [← hiff]
  exact ⟨s, e1, fun h => ⟨(e2 h).1, (e2 h).2, C26_glued_reduced hP hva hvb ha hb hroom ra rb e1 h⟩, e3⟩

end

/-! ### Both cases occur -/

/-- The words with an `a` seventeen places before their end. -/
def lateA : Language Nat := {w | w.reverse[16]? = some 97}

/-- The seventeen letters `a` and `b` that stand for the bits of a number. -/
def bitWord (n : Nat) : List Nat := (List.range 17).map fun i => if n.testBit i then 97 else 98

theorem bitWord_mem {n c : Nat} (h : c ∈ bitWord n) : c = 97 ∨ c = 98 := by
  obtain ⟨i, -, rfl⟩ := List.mem_map.1 h
  split
  · exact .inl rfl
  · exact .inr rfl

/-- Too many words are told apart by a language that agrees with it on the words of `a` and `b`. -/
theorem late_many (Ls : List (Language Nat)) {L : Language Nat} (h : L ∈ Ls) (hL : ∀ w, (∀ c ∈ w, c = 97 ∨ c = 98) → (w ∈ L ↔ w ∈ lateA)) : ManyRests Ls 80000 := by
  refine ⟨(List.range 80002).map bitWord, ?_, ?_, by simp⟩
  · intro w hw
    obtain ⟨n, -, rfl⟩ := List.mem_map.1 hw
    intro c hc
    obtain ⟨i, -, rfl⟩ := List.mem_map.1 hc
    split <;> exact ⟨by decide, by decide⟩
  · rw [List.pairwise_map]
    refine List.Pairwise.imp_of_mem ?_ (List.nodup_range (n := 80002))
    intro m n hm hn hne hs
    rw [List.mem_range] at hm hn
    have : ∃ i, i < 17 ∧ m.testBit i ≠ n.testBit i := by
      by_contra hc
      push Not at hc
      refine hne (Nat.eq_of_testBit_eq fun i => ?_)
      by_cases hi : i < 17
      · exact hc i hi
      · have hp : 2 ^ 17 ≤ 2 ^ i := Nat.pow_le_pow_right (by omega) (by omega)
        rw [Nat.testBit_lt_two_pow (show m < 2 ^ i by omega), Nat.testBit_lt_two_pow (show n < 2 ^ i by omega)]
    obtain ⟨i, hi, hb⟩ := this
    have key : ∀ n : Nat, bitWord n ++ List.replicate i 98 ∈ lateA ↔ n.testBit i = true := by
      intro n
      show (bitWord n ++ List.replicate i 98).reverse[16]? = some 97 ↔ _
      rw [List.reverse_append, List.reverse_replicate, List.getElem?_append_right (by simp; omega), List.getElem?_reverse (by simp [bitWord]; omega)]
      have e : (bitWord n).length - 1 - (16 - (List.replicate i 98).length) = i := by simp [bitWord]; omega
      rw [e]
      simp [bitWord, hi]
    have := hs L h (List.replicate i 98) fun c hc => by rw [List.eq_of_mem_replicate hc]; exact ⟨by decide, by decide⟩
    have hw : ∀ n, ∀ c ∈ bitWord n ++ List.replicate i 98, c = 97 ∨ c = 98 := by
      intro n c hc
      rcases List.mem_append.1 hc with hc | hc
      · exact bitWord_mem hc
      · exact .inr (List.eq_of_mem_replicate hc)
    rw [hL _ (hw m), hL _ (hw n), key, key] at this
    exact hb (Bool.eq_iff_iff.2 this)

/-- Too many words are told apart by this language. -/
theorem lateA_many (Ls : List (Language Nat)) (h : lateA ∈ Ls) : ManyRests Ls 80000 := late_many Ls h fun _ _ => Iff.rfl

/-- `ab` anywhere and `cd` anywhere: compiled scanners are without superfluous states, and gluing them does not fail. -/
example (P : Policy) (hP : Typedef P) : ∃ a b As Bs, Valid P a ∧ Valid P b ∧ Recognizes P a As ∧ Recognizes P b Bs ∧ Reduced P a As ∧ Reduced P b Bs ∧
    As.length = 1 ∧ Bs.length = 1 ∧ ¬ ManyRests (As ++ Bs) (glueLimit 0) := by
  have k1 : Expr.Ok (.surround (.lit [97, 98])) := show IsWord [97, 98] by unfold IsWord; decide
  have k2 : Expr.Ok (.surround (.lit [99, 100])) := show IsWord [99, 100] by unfold IsWord; decide
  have hf : build (.surround (.lit [97, 98])) = some (Fsm.init.appendStr [97, 98]).surround := rfl
  have hg : build (.surround (.lit [99, 100])) = some (Fsm.init.appendStr [99, 100]).surround := rfl
  obtain ⟨gf, lf, -⟩ := build_spec _ k1 _ hf
  obtain ⟨gg, lg, -⟩ := build_spec _ k2 _ hg
  have zf : (Fsm.init.appendStr [97, 98]).surround.size ≤ 8 := by decide +kernel
  have zg : (Fsm.init.appendStr [99, 100]).surround.size ≤ 8 := by decide +kernel
  have df : (Fsm.init.appendStr [97, 98]).surround.determined = false := abAnywhere_undetermined
  have dg : (Fsm.init.appendStr [99, 100]).surround.determined = false := by
    simp [Fsm.surround, Fsm.prependAnything, Fsm.appendAnything, Fsm.appendStr, Fsm.init, Fsm.appendChar]
  obtain ⟨cf, hcf⟩ := canonize_small gf (by omega)
  obtain ⟨cg, hcg⟩ := canonize_small gg (by omega)
  have ha : compile P 4096 (Fsm.init.appendStr [97, 98]).surround = some (compileCanonized P 4096 cf) := by unfold compile; rw [hcf]; rfl
  have hb : compile P 8192 (Fsm.init.appendStr [99, 100]).surround = some (compileCanonized P 8192 cg) := by unfold compile; rw [hcg]; rfl
  have tf := build_tagsIn _ or_mod4 _ _ hf
  have tg := build_tagsIn _ or_mod4 _ _ hg
  have pa : Placed P 4096 _ _ := ⟨by decide, compile_bufSize hP.real gf ha (by decide) df, by rw [df]; simp⟩
  have pb : Placed P 8192 _ _ := ⟨by decide, compile_bufSize hP.real gg hb (by decide) dg, by rw [dg]; simp⟩
  obtain ⟨va, ea, ra⟩ := compile_spec hP.real gf tf ha pa.align pa.space pa.small
  obtain ⟨vb, eb, rb⟩ := compile_spec hP.real gg tg hb pb.align pb.space pb.small
  have da := C26_compiled_reduced hP gf tf ha pa
  have db := C26_compiled_reduced hP gg tg hb pb
  refine ⟨_, _, _, _, va, vb, ra, rb, da, db, rfl, rfl, ?_⟩
  rw [← C26_fails_exactly ra rb da db]
  refine C26_small_product_succeeds va vb _ ?_
  have sa : (compileCanonized P 4096 cf).m.statesCount ≤ 2 ^ 8 := by
    rw [(compileCanonized_m P 4096 cf).1]
    exact ((Nat.mod_le _ _).trans (C20_at_most_exponential gf df hcf)).trans (Nat.pow_le_pow_right (by omega) zf)
  have sb : (compileCanonized P 8192 cg).m.statesCount ≤ 2 ^ 8 := by
    rw [(compileCanonized_m P 8192 cg).1]
    exact ((Nat.mod_le _ _).trans (C20_at_most_exponential gg dg hcg)).trans (Nat.pow_le_pow_right (by omega) zg)
  exact (Nat.mul_le_mul sa sb).trans (by decide)

end Pire.Props
