import Verif.Proofs.MultiCompile
import Verif.Proofs.Tags
import Verif.Spec.Scanner

/-!
# Compiled scanners recognise the language of the automaton
-/

namespace Pire
open Spec

namespace Fsm

theorem canonize_size {f g : Fsm} (h : f.Good) {m : Nat} (hg : f.canonize m = some g) :
    g.size ≤ if f.determined then f.size else (if m ≠ 0 then m else 200000) + 1 := by
  unfold canonize at hg
  cases hf : f.determined with
  | true =>
    rw [if_pos hf] at hg
    cases hg
    obtain ⟨m1, m2, m3, -⟩ := (h.det hf).minimize
    exact m3
  | false =>
    rw [if_neg (by simp [hf])] at hg
    simp only at hg
    split at hg
    · rename_i ok
      cases hg
      obtain ⟨h1, h2, h3, -⟩ := (determine_spec h.wf hf m).1 ok
      obtain ⟨m1, m2, m3, -⟩ := h1.minimize
      exact m3.trans h3
    · cases hg

end Fsm

namespace Multi
variable {P : Policy} {s : Multi} {T : Tbl}

theorem rest_setMasks (row : Nat) (cs : List Nat) (s : Multi) (ind : Nat) : (s.setMasks P row ind cs).1.rest = s.rest := by
  induction cs generalizing s ind with
  | nil => rfl
  | cons c cs ih =>
    rw [setMasks, ih]
    split
    · rfl
    · exact rest_setMask ..

theorem rest_shortcutLoop (chars : Nat → List Nat) (row : Nat) (ks : List Nat) (s : Multi) (ind : Nat) :
    (s.shortcutLoop P chars row ks ind).1.rest = s.rest := by
  induction ks generalizing s ind with
  | nil => rfl
  | cons k ks ih =>
    rw [shortcutLoop]
    simp only
    split
    · split
      · rfl
      · rw [ih, rest_setMasks]
    · exact ih ..

theorem rest_finishMasks (row ind : Nat) (s : Multi) : (s.finishMasks P row ind).rest = s.rest := by
  unfold finishMasks
  split
  · rfl
  · exact foldl_same (fun s i => rest_setMask ..) _ _

theorem rest_shortcutRow (chars : Nat → List Nat) (row : Nat) (s : Multi) : (s.shortcutRow P chars row).rest = s.rest := by
  unfold shortcutRow
  simp only
  rw [rest_finishMasks]
  have h1 : (if P.masks = 0 then s else s.setMask P row 0 2).rest = s.rest := by
    split
    · rfl
    · exact rest_setMask ..
  generalize (if P.masks = 0 then s else s.setMask P row 0 2) = s1 at h1
  have h2 := (rest_shortcutLoop (P := P) chars row (List.range' P.headerSize s1.m.lettersCount) s1 0)
  split
  · rw [h2, h1]
  · split
    · rw [h2, h1]
    · rw [rest_setMask, h2, h1]

theorem rest_buildShortcuts (s : Multi) : (s.buildShortcuts P).rest = s.rest :=
  foldl_same (fun s row => rest_shortcutRow _ row s) _ _

theorem foldl_rest_fst {β : Type} {f : Multi × Nat → β → Multi × Nat} (h : ∀ r x, (f r x).1.rest = r.1.rest) (l : List β)
    (r : Multi × Nat) : (l.foldl f r).1.rest = r.1.rest := by
  induction l generalizing r with
  | nil => rfl
  | cons x l ih => rw [List.foldl_cons, ih, h]

theorem rest_fillFinals (s : Multi) : (s.fillFinals P).rest = s.rest := by
  unfold fillFinals
  rw [foldl_rest_fst]
  intro r x
  simp only
  split <;> rfl

theorem rest_buildScanner (f : Fsm) (s : Multi) : (buildScanner P f s).rest = s.rest := by
  unfold buildScanner finishBuild
  simp only
  rw [rest_buildShortcuts, rest_fillFinals]
  refine Eq.trans (foldl_same (g := rest) ?_ _ _) (foldl_same (g := rest) ?_ _ _)
  · intro s fr
    refine foldl_same (g := rest) ?_ _ _
    intro s e
    refine foldl_same (g := rest) ?_ _ _
    intro s d
    rfl
  · intro s q
    rfl

theorem compileCanonized_m (P : Policy) (base : Nat) (f : Fsm) :
    (compileCanonized P base f).m.statesCount = (localsOf P f).statesCount ∧
    (compileCanonized P base f).m.lettersCount = (localsOf P f).lettersCount ∧
    (compileCanonized P base f).m.finalTableSize = (localsOf P f).finalTableSize := by
  have h := rest_buildScanner (P := P) f (init P base f.size f.letters f.finals.card f.initial 1)
  obtain ⟨s0, h1, h2⟩ := init_eq P base f.size f.finals.card f.initial 1 f.letters
  rw [h1, rest_writes, h2] at h
  have hm : (compileCanonized P base f).m =
      { (alloc P base f.size f.letters f.finals.card 1).m with
        initial := (alloc P base f.size f.letters f.finals.card 1).indexToState P f.initial } := by
    unfold compileCanonized
    rw [h1]
    exact congrArg Prod.fst h
  rw [hm]
  exact ⟨rfl, rfl, rfl⟩

theorem rowBytes_le (hP : P.Real) {m : Locals} (h : m.lettersCount ≤ 264) : rowBytes P m ≤ 2288 := by
  unfold rowBytes rowSize Scn.alignUp Policy.headerSize Policy.headerBytes
  rcases hP with h0 | h0 <;> cases hr : P.reloc <;> simp only [h0, Reloc.tsz] <;> omega

theorem room_of {base : Nat} {g : Fsm} (hP : P.Real) (hd : g.Det) (hal : base % 8 = 0)
    (hsp : base + bufSize P (compileCanonized P base g).m ≤ 2 ^ 64) (hn : g.size ≤ 900000) : Room P base g := by
  have hcard : g.finals.card ≤ g.size := by
    have : g.finals ⊆ Finset.range g.size := fun q hq => Finset.mem_range.2 (hd.wf.fin_lt q hq)
    simpa using Finset.card_le_card this
  have hsz := AllLetters.size_le hd.wf.let_wf hd.all
  obtain ⟨e1, e2, e3⟩ := compileCanonized_m P base g
  refine ⟨by omega, hal, ?_, ?_⟩
  · rw [← (bufSize_congr (P := P) e1 e2 e3).1]; exact hsp
  · intro _
    have hl : (localsOf P g).lettersCount ≤ 264 := by
      show g.letters.size % 2 ^ 32 ≤ 264
      rw [Nat.mod_eq_of_lt (by omega)]; exact hsz
    have hs : (localsOf P g).statesCount ≤ 900000 := by
      show g.size % 2 ^ 32 ≤ _
      rw [Nat.mod_eq_of_lt (by omega)]; exact hn
    calc rowBytes P (localsOf P g) * (localsOf P g).statesCount ≤ 2288 * 900000 := Nat.mul_le_mul (rowBytes_le hP hl) hs
      _ < 2 ^ 31 := by omega

/-! ### Valid scanners -/

/-- The memory of the scanner is a well-formed table (whatever it means). Established by compiling, copying, gluing, loading;
all the operations that take scanners need it. -/
def Valid (P : Policy) (s : Multi) : Prop := ∃ T, Repr P s T

theorem Core.reached (h : Core P s T) {st : Nat} (hs : Reached P s st) : ∃ q, q < T.n ∧ st = s.indexToState P q := by
  obtain ⟨w, hw, rfl⟩ := hs
  have : (s.scn P).initial = s.indexToState P T.q0 := h.initial
  rw [this, h.after_eq h.wf.q0_lt hw]
  exact ⟨_, h.wf.after_lt h.wf.q0_lt hw, rfl⟩

theorem reached_initial : Reached P s (s.scn P).initial := ⟨[], fun _ h => (List.not_mem_nil h).elim, rfl⟩

theorem reached_closed : Scn.Closed (s.scn P) (Reached P s) := by
  rintro st c ⟨w, hw, rfl⟩ hc
  refine ⟨w ++ [c], fun x hx => ?_, ?_⟩
  · rcases List.mem_append.1 hx with hx | hx
    · exact hw x hx
    · rw [List.mem_singleton.1 hx]; exact hc
  · unfold Scn.after; rw [List.foldl_append]; rfl

theorem Valid.maskSound (hP : P.Real) (h : Valid P s) {st : Nat} (hs : Reached P s st) :
    Scn.MaskSound (s.exitMasks P) (s.scn P) st := by
  obtain ⟨T, hT⟩ := h
  obtain ⟨q, hq, rfl⟩ := hT.toCore.reached hs
  exact hT.maskSound hP hq

theorem Recognizes.deadSound {Ls : List (Language Nat)} (h : Recognizes P s Ls) : Scn.DeadSound (s.scn P) (Reached P s) := by
  rintro st ⟨w, hw, rfl⟩ hd v hv
  have hnot := (h.dead w hw).1 hd v hv
  have hwv : IsWord (w ++ v) := fun c hc => (List.mem_append.1 hc).elim (hw c) (hv c)
  by_contra hc
  rw [Bool.not_eq_false] at hc
  apply hnot
  rw [← h.final _ hwv]
  unfold Scn.after at hc ⊢
  rw [List.foldl_append]
  exact hc

/-! ### Semantics of a table -/

/-- The table recognises the languages. -/
structure Sem (T : Tbl) (Ls : List (Language Nat)) : Prop where
  count : T.regexps = Ls.length
  accepted : ∀ w, IsWord w → T.acc (T.after T.q0 w) = hits Ls w
  final : ∀ w, IsWord w → (T.flag (T.after T.q0 w) &&& 1 ≠ 0 ↔ ∃ L ∈ Ls, w ∈ L)
  dead : ∀ w, IsWord w → (T.flag (T.after T.q0 w) &&& 2 ≠ 0 ↔ ∀ v, IsWord v → ¬ ∃ L ∈ Ls, w ++ v ∈ L)

theorem Core.recognizes {Ls : List (Language Nat)} (h : Core P s T) (he : s.empty = false) :
    Recognizes P s Ls ↔ Sem T Ls := by
  have hi : (s.scn P).initial = s.indexToState P T.q0 := h.initial
  have ha : ∀ w, IsWord w → (s.scn P).after (s.scn P).initial w = s.indexToState P (T.after T.q0 w) := by
    intro w hw
    rw [hi, h.after_eq h.wf.q0_lt hw]
  have hl : ∀ w, IsWord w → T.after T.q0 w < T.n := fun w hw => h.wf.after_lt h.wf.q0_lt hw
  have hr : s.regexpsCount = T.regexps := by unfold regexpsCount; rw [he]; exact h.regexps
  constructor
  · intro hR
    refine ⟨hr.symm.trans hR.count, fun w hw => ?_, fun w hw => ?_, fun w hw => ?_⟩
    · rw [← h.acceptedRegexps_eq (hl w hw), ← ha w hw, hR.accepted w hw]
    · rw [← hR.final w hw, ha w hw, h.final_eq (hl w hw), bne_iff_ne]
    · rw [← hR.dead w hw, ha w hw, h.dead_eq (hl w hw), bne_iff_ne]
  · intro hS
    refine ⟨hr.trans hS.count, fun w hw => ?_, fun w hw => ?_, fun w hw => ?_⟩
    · rw [ha w hw, h.acceptedRegexps_eq (hl w hw), hS.accepted w hw]
    · rw [← hS.final w hw, ha w hw, h.final_eq (hl w hw), bne_iff_ne]
    · rw [← hS.dead w hw, ha w hw, h.dead_eq (hl w hw), bne_iff_ne]

theorem hits_one (L : Language Nat) (w : List Nat) [Decidable (w ∈ L)] : hits [L] w = if w ∈ L then [0] else [] := by
  unfold hits
  simp only [List.length_singleton, List.range_one, List.filter_cons, List.filter_nil, List.getD_cons_zero, decide_eq_true_eq]

theorem run_append {E : Nat → Nat → Nat → Prop} {q p r : Nat} {u v : List Nat} (h : Run E q u p) (h' : Run E p v r) : Run E q (u ++ v) r := by
  induction h with
  | refl => exact h'
  | eps e _ ih => exact .eps e (ih h')
  | step c e _ ih => exact .step c e (ih h')

theorem tblOf_sem {f : Fsm} (h : f.Det) (ht : f.TagsClean) : Sem (tblOf f) [f.Lang] := by
  classical
  refine ⟨rfl, fun w hw => ?_, fun w hw => ?_, fun w hw => ?_⟩
  · have := tblOf_final h ht hw h.wf.init_lt
    rw [hits_one]
    show (if (tblOf f).flag ((tblOf f).after f.initial w) &&& 1 ≠ 0 then [0] else []) = _
    by_cases hL : w ∈ f.Lang
    · rw [if_pos hL, if_pos (this.2 hL)]
    · rw [if_neg hL, if_neg (fun hx => hL (this.1 hx))]
  · rw [List.exists_mem_cons_iff]
    simp only [List.not_mem_nil, false_and, exists_false, or_false]
    exact tblOf_final h ht hw h.wf.init_lt
  · have hlt : (tblOf f).after f.initial w < f.size := (tblOf_wf h).after_lt h.wf.init_lt hw
    have hrun := (tblOf_run h hw h.wf.init_lt _).2 rfl
    show Multi.tagOf f f.deadStates ((tblOf f).after f.initial w) &&& 2 ≠ 0 ↔ _
    rw [(tagOf_bits ht _ _).2, Fsm.mem_deadStates h.wf h.coh]
    simp only [List.mem_singleton, exists_eq_left]
    have hiff : ∀ v, IsWord v → (w ++ v ∈ f.Lang ↔ v ∈ f.LangFrom ((tblOf f).after f.initial w)) := by
      intro v hv
      have hwv : IsWord (w ++ v) := fun c hc => (List.mem_append.1 hc).elim (hw c) (hv c)
      show w ++ v ∈ f.LangFrom f.initial ↔ _
      rw [← tblOf_final h ht hwv h.wf.init_lt, ← tblOf_final h ht hv hlt]
      unfold Tbl.after
      rw [List.foldl_append]
    constructor
    · rintro ⟨-, h1 | h1⟩ v hv hx
      · exact h1 ⟨w, hrun⟩
      · exact h1 ⟨v, (hiff v hv).1 hx⟩
    · intro hx
      refine ⟨hlt, .inr ?_⟩
      rintro ⟨v, hv⟩
      have hvw := h.wf.lang_word hv
      exact hx v hvw ((hiff v hvw).2 hv)

/-- Compiling. -/
theorem compile_repr {f : Fsm} {base : Nat} (hP : P.Real) (h : f.Good) (ht : f.TagsClean) (hs : compile P base f = some s)
    (hal : base % 8 = 0) (hsp : base + bufSize P s.m ≤ 2 ^ 64) (hn : f.determined = true → f.size ≤ 900000) :
    ∃ g, f.canonize 0 = some g ∧ Repr P s (tblOf g) ∧ g.Det ∧ g.TagsClean ∧ g.Lang = f.Lang ∧ s.empty = false ∧ s.base = base := by
  unfold compile at hs
  rw [Option.map_eq_some_iff] at hs
  obtain ⟨g, hg, rfl⟩ := hs
  obtain ⟨hd, -, hL, -⟩ := Fsm.canonize_spec h hg
  have htg : g.TagsClean := ht.canonize hg
  have hsz := Fsm.canonize_size h hg
  have hroom := room_of hP hd hal hsp (by
    split at hsz
    · rename_i hx; exact hsz.trans (hn hx)
    · simp at hsz; omega)
  obtain ⟨r1, r2, r3⟩ := compileCanonized_repr hP hd htg hroom
  exact ⟨g, hg, r1, hd, htg, hL, r2, r3⟩

theorem compile_spec {f : Fsm} {base : Nat} (hP : P.Real) (h : f.Good) (ht : f.TagsClean) (hs : compile P base f = some s)
    (hal : base % 8 = 0) (hsp : base + bufSize P s.m ≤ 2 ^ 64) (hn : f.determined = true → f.size ≤ 900000) :
    Valid P s ∧ s.empty = false ∧ Recognizes P s [f.Lang] := by
  obtain ⟨g, hg, r1, hd, htg, hL, r2, r3⟩ := compile_repr hP h ht hs hal hsp hn
  refine ⟨⟨_, r1⟩, r2, ?_⟩
  rw [← hL]
  exact (r1.toCore.recognizes r2).2 (tblOf_sem hd htg)

theorem compile_core {f : Fsm} {base : Nat} (hP : P.Real) (h : f.Good) (ht : f.TagsClean) (hs : compile P base f = some s)
    (hal : base % 8 = 0) (hsp : base + bufSize P s.m ≤ 2 ^ 64) (hn : f.determined = true → f.size ≤ 900000) :
    ∃ T, Repr P s T ∧ s.base = base := by
  obtain ⟨g, hg, r1, hd, htg, hL, r2, r3⟩ := compile_repr hP h ht hs hal hsp hn
  exact ⟨_, r1, r3⟩

theorem Core.in_block (h : Core P s T) {q c : Nat} (hq : q < T.n) (hc : IsLetter c) :
    s.indexToState P q + P.reloc.tsz * s.get P (.letter c) + P.reloc.tsz ≤ s.base + bufSize P s.m ∧
    s.indexToState P q + 32 * P.masks + 8 ≤ s.base + bufSize P s.m := by
  have hk := h.wf.cls_lt c hc
  rw [h.letter c hc]
  have hq' : q < s.m.statesCount := h.states ▸ hq
  have h1 := inside (P := P) (m := s.m) (c := .slot q (P.headerSize + T.cls c)) ⟨hq', by omega, by have := rowSize_ge P s.m; rw [h.letters] at this; omega⟩
  have h2 := inside (P := P) (m := s.m) (c := .flags q) hq'
  simp only [off, len] at h1 h2
  unfold indexToState trans
  omega

theorem compile_counts_of {f : Fsm} {base : Nat} (h : f.Good) (hs : compile P base f = some s) (hn : f.determined = true → f.size ≤ 200001) :
    s.m.statesCount ≤ 200001 ∧ s.m.lettersCount ≤ 264 ∧ s.m.finalTableSize ≤ 400002 := by
  unfold compile at hs
  rw [Option.map_eq_some_iff] at hs
  obtain ⟨g, hg, rfl⟩ := hs
  obtain ⟨hd, -, hL, -⟩ := Fsm.canonize_spec h hg
  have hsz := Fsm.canonize_size h hg
  replace hsz : g.size ≤ 200001 := by
    split at hsz
    · rename_i hx; exact hsz.trans (hn hx)
    · simpa using hsz
  have hcard : g.finals.card ≤ g.size := by
    have : g.finals ⊆ Finset.range g.size := fun q hq => Finset.mem_range.2 (hd.wf.fin_lt q hq)
    simpa using Finset.card_le_card this
  have hl := AllLetters.size_le hd.wf.let_wf hd.all
  obtain ⟨e1, e2, e3⟩ := compileCanonized_m P base g
  rw [e1, e2, e3]
  refine ⟨?_, ?_, ?_⟩
  · show g.size % 2 ^ 32 ≤ _
    rw [Nat.mod_eq_of_lt (by omega)]; exact hsz
  · show g.letters.size % 2 ^ 32 ≤ 264
    rw [Nat.mod_eq_of_lt (by omega)]; exact hl
  · show (g.finals.card + g.size) % 2 ^ 32 ≤ _
    rw [Nat.mod_eq_of_lt (by omega)]; omega

theorem compile_counts {f : Fsm} {base : Nat} (h : f.Good) (hs : compile P base f = some s) (hn : f.determined = false) :
    s.m.statesCount ≤ 200001 ∧ s.m.lettersCount ≤ 264 ∧ s.m.finalTableSize ≤ 400002 :=
  compile_counts_of h hs fun h => by rw [hn] at h; cases h

theorem fits_of_counts {base : Nat} {m : Locals} (hP : P.Real) (ha : base % 8 = 0) (hb : base ≤ 2 ^ 63)
    (h1 : m.statesCount ≤ 900000) (h2 : m.lettersCount ≤ 264) (h3 : m.finalTableSize ≤ 2 ^ 32) : Fits P base m := by
  have hr := Nat.mul_le_mul (rowBytes_le hP h2) h1
  have e : rowSize P m * m.statesCount * P.reloc.tsz = rowBytes P m * m.statesCount := by
    unfold rowBytes; ring
  have hM : MaxChar = 264 := rfl
  refine ⟨ha, ?_, fun _ => by omega⟩
  unfold bufSize Scn.alignUp
  rw [e]
  omega

theorem compile_bufSize_of {f : Fsm} {base : Nat} (hP : P.Real) (h : f.Good) (hs : compile P base f = some s)
    (hb : base ≤ 2 ^ 63) (hn : f.determined = true → f.size ≤ 200001) : base + bufSize P s.m ≤ 2 ^ 64 := by
  obtain ⟨c1, c2, c3⟩ := compile_counts_of h hs hn
  have h8 : base / 8 * 8 ≤ base := Nat.div_mul_le_self _ _
  have := (fits_of_counts (base := 0) hP rfl (by omega) (show s.m.statesCount ≤ 900000 by omega) c2 (by omega)).space
  have hr := Nat.mul_le_mul (rowBytes_le hP c2) c1
  have e : rowSize P s.m * s.m.statesCount * P.reloc.tsz = rowBytes P s.m * s.m.statesCount := by
    unfold rowBytes; ring
  have hM : MaxChar = 264 := rfl
  unfold bufSize Scn.alignUp
  rw [e]
  omega

theorem compile_bufSize {f : Fsm} {base : Nat} (hP : P.Real) (h : f.Good) (hs : compile P base f = some s)
    (hb : base ≤ 2 ^ 63) (hn : f.determined = false) : base + bufSize P s.m ≤ 2 ^ 64 :=
  compile_bufSize_of hP h hs hb fun h => by rw [hn] at h; cases h

end Multi
end Pire
