import Verif.Proofs.Glue
import Verif.Props.Scanner

/-!
# Properties C26 (gluing scanners) and C27 (the lookup table used by it)
-/

namespace Pire.Props

open Pire Pire.Spec Pire.Scn Pire.Multi Pire.Fsm

/-! ### C27 -/

/-- After any sequence of `insert` calls with at most `N - 2` different keys, none of which is undefined behaviour, `find` gives
exactly what `std::map` would: the value first inserted under the key, or `end()` if there was none. -/
theorem C27_table_is_a_map (N : Nat) (l : List ((Nat × Nat) × Nat)) (hl : (l.map Prod.fst).dedup.length + 2 ≤ N) :
    ∃ t, LTable.insertAll N l = some t ∧ ∀ k, t.find N k = some (l.lookup k) := by
  obtain ⟨t, n, h1, h2, h3⟩ := LTable.insertAll_rep (N := N) l (K := l.map Prod.fst)
    (fun x hx => List.mem_map.2 ⟨x, hx, rfl⟩) hl
  exact ⟨t, h1, fun k => LTable.find_spec h3 h2 k⟩

/-- `insert` reports whether the key was new, and the returned iterator points to the value now stored under the key. -/
theorem C27_insert_result (N : Nat) (l : List ((Nat × Nat) × Nat)) (k : Nat × Nat) (v : Nat)
    (hl : ((l.map Prod.fst ++ [k]).dedup).length + 2 ≤ N) :
    ∃ t t', LTable.insertAll N l = some t ∧ t.insert N k v = some (t', (l.lookup k).getD v, (l.lookup k).isNone) ∧
      ∀ k', t'.find N k' = some ((l ++ [(k, v)]).lookup k') := by
  obtain ⟨t, n, h1, h2, h3⟩ := LTable.insertAll_rep (N := N) l (K := l.map Prod.fst ++ [k])
    (fun x hx => List.mem_append_left _ (List.mem_map.2 ⟨x, hx, rfl⟩)) hl
  obtain ⟨t2, n2, g1, g2, g3⟩ := LTable.insertAll_rep (N := N) (l ++ [(k, v)]) (K := l.map Prod.fst ++ [k])
    (fun x hx => by
      rcases List.mem_append.1 hx with hx | hx
      · exact List.mem_append_left _ (List.mem_map.2 ⟨x, hx, rfl⟩)
      · rw [List.mem_singleton.1 hx]; simp) hl
  have hstep : (t.insert N k v).map (·.1) = some t2 := by
    unfold LTable.insertAll at h1 g1
    rw [List.foldlM_append, h1] at g1
    simpa using g1
  cases hk : l.lookup k with
  | some w =>
    have hi := LTable.insert_old h3 h2 (k := k) v hk
    rw [hi] at hstep
    cases hstep
    exact ⟨t, t, h1, hi, fun k' => LTable.find_spec g3 g2 k'⟩
  | none =>
    obtain ⟨t3, b1, b2⟩ := LTable.insert_new h3 h2 (k := k) v hk
    rw [b1] at hstep
    cases hstep
    exact ⟨t, t3, h1, b1, fun k' => LTable.find_spec g3 g2 k'⟩

/-- Beyond its capacity the table does not behave as a map: the search runs over all slots and reads out of bounds. -/
theorem C27_full_table_is_undefined : ∃ (N : Nat) (l : List ((Nat × Nat) × Nat)) (t : LTable),
    LTable.insertAll N l = some t ∧ l.length < N ∧ t.find N (16, 0) = none :=
  ⟨4, [((0, 0), 7), ((4, 0), 8), ((8, 0), 9)], _, rfl, by decide, by decide +kernel⟩

/-- Two keys with the same hash are kept apart. -/
example : ∃ t, LTable.insertAll 8 [((0, 0), 7), ((32, 0), 8), ((0, 0), 9)] = some t ∧ t.find 8 (32, 0) = some (some 8) ∧
    t.find 8 (0, 0) = some (some 7) ∧ t.find 8 (64, 0) = some none := by
  obtain ⟨t, h1, h2⟩ := C27_table_is_a_map 8 [((0, 0), 7), ((32, 0), 8), ((0, 0), 9)] (by decide)
  exact ⟨t, h1, h2 _, h2 _, h2 _⟩

/-! ### C26 -/

section
variable {P : Policy} {a b nul : Multi} {As Bs : List (Language Nat)} {base base' maxSize : Nat} {ownA ownB : Bool}

theorem acceptedFrom_empty (s : Multi) (e : Bool) (fuel i : Nat) :
    acceptedFrom P { s with empty := e } fuel i = acceptedFrom P s fuel i := by
  induction fuel generalizing i with
  | zero => rfl
  | succ fuel ih => unfold acceptedFrom; rw [ih]; rfl

/-- The default-constructed scanner: accepts nothing, is dead from the beginning, has no regexps. -/
theorem C26_empty_scanner (hP : Typedef P) (hn : Multi.null P base = some nul) (ha : base % 8 = 0) (hb : base ≤ 2 ^ 63) :
    nul.empty = true ∧ Valid P nul ∧ Recognizes P nul [] := by
  unfold Multi.null at hn
  rw [Option.map_eq_some_iff] at hn
  obtain ⟨s, hs, rfl⟩ := hn
  have hg := Good.makeFalse
  have hnd : Fsm.makeFalse.determined = false := rfl
  have htc : Fsm.makeFalse.TagsClean := by intro q t h; cases h
  obtain ⟨⟨T, hT⟩, he, hR⟩ := compile_spec hP.real hg htc hs ha (compile_bufSize hP.real hg hs hb hnd) (by rw [hnd]; simp)
  rw [lang_makeFalse] at hR
  refine ⟨rfl, ⟨T, ⟨⟨hT.wf, hT.fits, hT.states, hT.letters, hT.regexps, hT.initial, hT.letter, hT.jump, hT.flags, fun q hq =>
    ⟨(hT.finals q hq).bound, (hT.finals q hq).entry, (hT.finals q hq).stop⟩⟩, hT.masks⟩⟩, rfl, fun w hw => ?_, fun w hw => ?_, fun w hw => ?_⟩
  · have := hR.accepted w hw
    classical
    rw [hits_one, if_neg (show w ∉ (0 : Language Nat) from Set.notMem_empty w)] at this
    have e : ∀ st, acceptedRegexps P { s with empty := true } st = s.acceptedRegexps P st := by
      intro st
      unfold acceptedRegexps
      exact acceptedFrom_empty ..
    rw [e]
    exact this
  · have := hR.final w hw
    simp only [List.mem_singleton, exists_eq_left, List.not_mem_nil, false_and, exists_false] at this ⊢
    rw [show (w ∈ (0 : Language Nat)) ↔ False from ⟨fun h => Set.notMem_empty w h, False.elim⟩] at this
    exact this
  · have := hR.dead w hw
    simp only [List.not_mem_nil, false_and, exists_false, not_false_eq_true, implies_true, iff_true]
    refine this.2 ?_
    rintro v hv ⟨L, hL, hx⟩
    rw [List.mem_singleton.1 hL] at hx
    exact Set.notMem_empty _ hx

/-- There is one. -/
theorem empty_scanner_exists (P : Policy) (base : Nat) : ∃ s, Multi.null P base = some s := by
  unfold Multi.null compile
  obtain ⟨g, hg⟩ := canonize_small Good.makeFalse (show Fsm.makeFalse.size ≤ 17 by decide)
  rw [hg]
  exact ⟨_, rfl⟩

/-- The limit on the number of states `Glue` uses. -/
def glueLimit (maxSize : Nat) : Nat := if maxSize ≠ 0 then maxSize else 80000

/-- The two scanners together need more states than `n + 1`: there are `n + 2` words leading to different pairs of states. -/
def TooManyPairs (P : Policy) (a b : Multi) (n : Nat) : Prop :=
  ∃ ws : List (List Nat), (∀ w ∈ ws, IsWord w) ∧ (ws.map (pairAfter P a b)).Nodup ∧ ws.length = n + 2

/-- The sizes stay in range: the blocks are 8-aligned and in the lower half of the address space; a caller-supplied limit stays
below the capacity of the lookup table (256K); the final table has less than 2^32 entries (with the default limit this allows
53000 regexps). An argument that owns its memory is not the empty scanner, and could be copied to the new address. -/
structure GlueRoom (P : Policy) (a b : Multi) (ownA ownB : Bool) (As Bs : List (Language Nat)) (base base' maxSize : Nat) : Prop where
  align : base % 8 = 0
  space : base ≤ 2 ^ 63
  align' : base' % 8 = 0
  space' : base' ≤ 2 ^ 63
  table : glueLimit maxSize + 3 ≤ 256 * 1024
  finals : (As.length + Bs.length + 1) * (glueLimit maxSize + 1) < 2 ^ 32
  ownA : ownA = true → a.empty = false ∧ Fits P base' a.m
  ownB : ownB = true → b.empty = false ∧ Fits P base' b.m

theorem copyCtor_spec {own : Bool} (hP : Typedef P) (hv : Valid P a) (ha : Recognizes P a As)
    (ho : own = true → a.empty = false ∧ Fits P base' a.m) :
    Valid P (copyCtor P own base' a) ∧ Recognizes P (copyCtor P own base' a) As := by
  unfold copyCtor
  cases own with
  | false => exact ⟨hv, ha⟩
  | true =>
    obtain ⟨he, hf⟩ := ho rfl
    obtain ⟨e1, e2, e3, -⟩ := deepCopy_m P P base' a
    have := C37_copy_recognizes_the_same hP hP rfl hv he ha (base := base') (hf.congr e1 e2 e3)
    exact ⟨this.2, this.1⟩

/-- The constructor from the other relocation strategy, for every scanner including the default-constructed one: the result
recognises the same languages, is valid, and is empty exactly when the original is. -/
theorem C37_convert {P' : Policy} {s : Multi} {Ls : List (Language Nat)} {nb : Nat} (hP : Typedef P) (hP' : Typedef P') (hm : P.masks = P'.masks)
    (hn : Multi.null P nb = some nul) (hna : nb % 8 = 0) (hnb : nb ≤ 2 ^ 63) (hv : Valid P' s) (hR : Recognizes P' s Ls)
    (he : s.empty = true → Ls = []) (hf : s.empty = false → Fits P base s.m) :
    Recognizes P (convert P P' nul base s) Ls ∧ Valid P (convert P P' nul base s) ∧ (convert P P' nul base s).empty = s.empty := by
  unfold convert
  cases hs : s.empty with
  | true =>
    rw [if_pos rfl, he hs]
    obtain ⟨h1, h2, h3⟩ := C26_empty_scanner hP hn hna hnb
    exact ⟨h3, h2, h1⟩
  | false =>
    rw [if_neg (by decide)]
    obtain ⟨e1, e2, e3, -, e4, -⟩ := deepCopy_m P P' base s
    have := C37_copy_recognizes_the_same hP hP' hm hv hs hR (base := base) ((hf hs).congr e1 e2 e3)
    exact ⟨this.1, this.2, e4⟩

/-- The copy constructor, for scanners with a buffer of their own and for empty or mapped ones. -/
theorem C37_copy_constructor {s : Multi} {Ls : List (Language Nat)} {own : Bool} (hP : Typedef P) (hv : Valid P s) (hR : Recognizes P s Ls)
    (ho : own = true → s.empty = false ∧ Fits P base s.m) :
    Recognizes P (copyCtor P own base s) Ls ∧ Valid P (copyCtor P own base s) ∧ (copyCtor P own base s).empty = s.empty := by
  obtain ⟨h1, h2⟩ := copyCtor_spec hP hv hR ho
  refine ⟨h2, h1, ?_⟩
  unfold copyCtor
  cases own with
  | false => rfl
  | true => rw [if_pos rfl, (ho rfl).1]; exact (deepCopy_m P P base s).2.2.2.2.1

/-- Both happen: the empty relocatable scanner converts to the empty non-relocatable one. -/
example {P P' : Policy} (hP : Typedef P) (hP' : Typedef P') (hm : P.masks = P'.masks) : ∃ nul s, Multi.null P 4096 = some nul ∧
    Multi.null P' 8192 = some s ∧ Recognizes P (convert P P' nul 0 s) [] ∧ (convert P P' nul 0 s).empty = true := by
  obtain ⟨nul, hn⟩ := empty_scanner_exists P 4096
  obtain ⟨s, hs⟩ := empty_scanner_exists P' 8192
  obtain ⟨h1, h2, h3⟩ := C26_empty_scanner hP' hs (by decide) (by decide)
  obtain ⟨r1, -, r3⟩ := C37_convert (base := 0) hP hP' hm hn (by decide) (by decide) h2 h3 (fun _ => rfl) (fun h => by rw [h1] at h; cases h)
  exact ⟨nul, s, hn, hs, r1, r3.trans h1⟩

theorem reach_of_word {w : List Nat} (hw : IsWord w) : (glueTask P a b).Reach (pairAfter P a b w) := by
  induction w using List.reverseRecOn with
  | nil => exact .init
  | append_singleton w c ih =>
    have hr := ih fun x hx => hw x (by simp [hx])
    obtain ⟨e, he, hc⟩ := exists_class_of_letter (P := P) (a := a) (b := b) (hw c (by simp))
    rw [pairAfter_snoc, ← glue_next_class he hc]
    exact .step hr rfl he

theorem tooMany_iff (n : Nat) : (glueTask P a b).TooMany n ↔ TooManyPairs P a b n := by
  constructor
  · rintro ⟨l, h1, h2, h3⟩
    choose! f hf using fun s (hs : s ∈ l) => glue_reach_word (h2 s hs)
    refine ⟨l.map f, ?_, ?_, by rw [List.length_map, h3]⟩
    · intro w hw
      obtain ⟨s, hs, rfl⟩ := List.mem_map.1 hw
      exact (hf s hs).1
    · have : (l.map f).map (pairAfter P a b) = l := by
        rw [List.map_map]
        conv_rhs => rw [← List.map_id l]
        exact List.map_congr_left fun s hs => (hf s hs).2.symm
      rw [this]; exact h1
  · rintro ⟨ws, h1, h2, h3⟩
    refine ⟨ws.map (pairAfter P a b), h2, ?_, by rw [List.length_map, h3]⟩
    intro s hs
    obtain ⟨w, hw, rfl⟩ := List.mem_map.1 hs
    exact reach_of_word (h1 w hw)

/-- `Glue` never runs into undefined behaviour. It returns either a scanner recognising all the regexps, those of the first
scanner followed by those of the second, or the empty scanner; the latter exactly when both arguments are non-empty and the
product needs more states than allowed. -/
theorem C26_glue (hP : Typedef P) (hva : Valid P a) (hvb : Valid P b) (ha : Recognizes P a As) (hb : Recognizes P b Bs)
    (hroom : GlueRoom P a b ownA ownB As Bs base base' maxSize) :
    ∃ s, glue P nul ownA ownB base base' a b maxSize = .ok s ∧
      (¬ (a.empty = false ∧ b.empty = false ∧ TooManyPairs P a b (glueLimit maxSize)) → Valid P s ∧ Recognizes P s (As ++ Bs)) ∧
      (a.empty = false ∧ b.empty = false ∧ TooManyPairs P a b (glueLimit maxSize) → s = nul) := by
  unfold glue
  by_cases hea : a.empty = true
  · rw [if_pos hea]
    have hA : As = [] := by
      have := ha.count
      unfold regexpsCount at this
      rw [hea, if_pos rfl] at this
      exact List.length_eq_zero_iff.1 this.symm
    subst hA
    refine ⟨_, rfl, fun _ => copyCtor_spec hP hvb hb hroom.ownB, ?_⟩
    rintro ⟨h, -⟩
    rw [hea] at h; cases h
  rw [if_neg hea]
  by_cases heb : b.empty = true
  · rw [if_pos heb]
    have hB : Bs = [] := by
      have := hb.count
      unfold regexpsCount at this
      rw [heb, if_pos rfl] at this
      exact List.length_eq_zero_iff.1 this.symm
    subst hB
    refine ⟨_, rfl, fun _ => by rw [List.append_nil]; exact copyCtor_spec hP hva ha hroom.ownA, ?_⟩
    rintro ⟨-, h, -⟩
    rw [heb] at h; cases h
  rw [if_neg heb]
  have hlim : (if maxSize ≠ 0 then maxSize else 80000) = glueLimit maxSize := rfl
  have htab : glueTableSize = 256 * 1024 := rfl
  rw [hlim, htab, DTask.runT_eq _ hroom.table]
  obtain ⟨r1, r2⟩ := DTask.run_spec (t := glueTask P a b) (glueLetters_wf P a b) (glueLimit maxSize)
  cases hrun : (glueTask P a b).run (glueLimit maxSize) with
  | none =>
    have hmany := (tooMany_iff _).1 (r2.1 hrun)
    refine ⟨nul, rfl, fun h => absurd ?_ h, fun _ => rfl⟩
    exact ⟨by simpa using hea, by simpa using heb, hmany⟩
  | some r =>
    obtain ⟨states, conns⟩ := r
    have hr := r1 _ _ hrun
    have hlen := hr.len
    have htable := hroom.table
    have hfin := hroom.finals
    have hmul : (As.length + Bs.length + 1) * states.length ≤ (As.length + Bs.length + 1) * (glueLimit maxSize + 1) :=
      Nat.mul_le_mul_left _ hlen
    have hmul1 : (As.length + Bs.length + 1) * 1 ≤ (As.length + Bs.length + 1) * (glueLimit maxSize + 1) :=
      Nat.mul_le_mul_left _ (by omega)
    obtain ⟨g1, g2, g3⟩ := glueBuild_repr hP.real hr ha hb (by omega) (by omega) (by omega) hroom.align hroom.space
    have hsem := glueTbl_sem hr ha hb
    have hrec := (g1.toCore.recognizes g2).2 hsem
    refine ⟨_, rfl, fun _ => ?_, ?_⟩
    · refine copyCtor_spec hP ⟨_, g1⟩ hrec fun _ => ⟨g2, ?_⟩
      apply fits_of_counts hP.real hroom.align' hroom.space'
      · rw [g1.states]; show states.length ≤ _; omega
      · rw [g1.letters]; exact g1.wf.L_le
      · have hfl := glueFinals_le hr ha hb
        have h1 : states.length * (As.length + Bs.length) + states.length = (As.length + Bs.length + 1) * states.length := by ring
        have h2 : (glueBuild P base a b states conns).m.finalTableSize = glueFinals P a b states + states.length := by
          have hi := init_spec (P := P) (base := base) (n := states.length) (F := glueFinals P a b states) (q0 := 0)
            (R := a.regexpsCount + b.regexpsCount) hP.real (glueLetters_wf P a b) (glueLetters_all P a b) (by omega)
              (by rw [ha.count, hb.count]; omega)
          have hm : (glueBuild P base a b states conns).rest = (init P base states.length (glueLetters P a b)
              (glueFinals P a b states) 0 (a.regexpsCount + b.regexpsCount)).rest := by
            unfold glueBuild acceptStates
            rw [rest_buildShortcuts]
            refine (foldl_same (g := rest) (f := fun s (x : Nat × Nat × Nat) => s.setJump P x.1 x.2.2 x.2.1)
              (fun _ _ => rfl) _ _).trans ?_
            obtain ⟨W, w1, -⟩ := acceptStates_eq (P := P) (a := a) (b := b) (states := states)
              (init P base states.length (glueLetters P a b) (glueFinals P a b states) 0 (a.regexpsCount + b.regexpsCount))
              (init P base states.length (glueLetters P a b) (glueFinals P a b states) 0 (a.regexpsCount + b.regexpsCount))
              hi.states (by rw [glueTbl_upto_length, hi.finals])
            simp only
            rw [w1, rest_writes]
          rw [(m_of_rest hm).1, hi.finals]
        omega
    · rintro ⟨-, -, h⟩
      have := r2.2 ((tooMany_iff _).2 h)
      rw [hrun] at this; cases this

/-- Spelled out: in the glued scanner, after any word, the `i`-th regexp of the first scanner has number `i`, the `j`-th of the
second has the number `j` plus the count of the first; each is reported exactly if the word matches it. -/
theorem C26_numbering {s : Multi} (hs : Recognizes P s (As ++ Bs)) {w : List Nat} (hw : IsWord w) :
    s.regexpsCount = As.length + Bs.length ∧
    (∀ i < As.length, i ∈ s.acceptedRegexps P ((s.scn P).after (s.scn P).initial w) ↔ w ∈ As.getD i 0) ∧
    ∀ j < Bs.length, As.length + j ∈ s.acceptedRegexps P ((s.scn P).after (s.scn P).initial w) ↔ w ∈ Bs.getD j 0 := by
  classical
  have hmem : ∀ i, i ∈ hits (As ++ Bs) w ↔ i < As.length + Bs.length ∧ w ∈ (As ++ Bs).getD i 0 := by
    intro i
    unfold hits
    rw [List.mem_filter, List.mem_range, List.length_append]
    simp
  rw [hs.accepted w hw]
  refine ⟨by rw [hs.count, List.length_append], fun i hi => ?_, fun j hj => ?_⟩
  · rw [hmem, List.getD_append _ _ _ _ hi]
    exact ⟨fun h => h.2, fun h => ⟨by omega, h⟩⟩
  · rw [hmem, List.getD_append_right _ _ _ _ (by omega), Nat.add_sub_cancel_left]
    exact ⟨fun h => h.2, fun h => ⟨by omega, h⟩⟩

/-- If the product of the numbers of states is within the limit, gluing succeeds. -/
theorem C26_small_product_succeeds (hva : Valid P a) (hvb : Valid P b) (n : Nat)
    (h : a.m.statesCount * b.m.statesCount ≤ n + 1) : ¬ TooManyPairs P a b n := by
  rintro ⟨ws, h1, h2, h3⟩
  obtain ⟨Ta, hTa⟩ := hva
  obtain ⟨Tb, hTb⟩ := hvb
  have hsub : ws.map (pairAfter P a b) ⊆
      (List.range Ta.n ×ˢ List.range Tb.n).map fun x => (a.indexToState P x.1, b.indexToState P x.2) := by
    intro s hs
    obtain ⟨w, hw, rfl⟩ := List.mem_map.1 hs
    obtain ⟨q, hq, e1⟩ := hTa.toCore.reached ⟨w, h1 w hw, rfl⟩
    obtain ⟨p, hp, e2⟩ := hTb.toCore.reached ⟨w, h1 w hw, rfl⟩
    refine List.mem_map.2 ⟨(q, p), List.mem_product.2 ⟨List.mem_range.2 hq, List.mem_range.2 hp⟩, ?_⟩
    exact Prod.ext e1.symm e2.symm
  have := (h2.subperm hsub).length_le
  rw [List.length_map, List.length_map, List.length_product, List.length_range, List.length_range, h3, ← hTa.states, ← hTb.states] at this
  omega

end

/-- Two scanners compiled from (small) automata can be glued. -/
theorem glue_of_compiled {P : Policy} {nul : Multi} (hP : Typedef P) {f g : Fsm} {a b : Multi} {b1 b2 base base' : Nat}
    (hf : f.Good) (hg : g.Good) (tf : f.TagsClean) (tg : g.TagsClean) (df : f.determined = false) (dg : g.determined = false)
    (ha : compile P b1 f = some a) (hb : compile P b2 g = some b)
    (h1 : b1 % 8 = 0) (h2 : b2 % 8 = 0) (h1' : b1 ≤ 2 ^ 63) (h2' : b2 ≤ 2 ^ 63)
    (al : base % 8 = 0) (sp : base ≤ 2 ^ 63) (al' : base' % 8 = 0) (sp' : base' ≤ 2 ^ 63)
    (hsz : f.size + g.size ≤ 16) :
    ∃ s, glue P nul true true base base' a b = .ok s ∧ Valid P s ∧ Recognizes P s [f.Lang, g.Lang] := by
  obtain ⟨va, ea, ra⟩ := compile_spec hP.real hf tf ha h1 (compile_bufSize hP.real hf ha h1' df) (by rw [df]; simp)
  obtain ⟨vb, eb, rb⟩ := compile_spec hP.real hg tg hb h2 (compile_bufSize hP.real hg hb h2' dg) (by rw [dg]; simp)
  have ca := compile_counts hf ha df
  have cb := compile_counts hg hb dg
  have sa : a.m.statesCount ≤ 2 ^ f.size := by
    unfold compile at ha
    rw [Option.map_eq_some_iff] at ha
    obtain ⟨k, hk, rfl⟩ := ha
    rw [(compileCanonized_m P b1 k).1]
    exact (Nat.mod_le _ _).trans (C20_at_most_exponential hf df hk)
  have sb : b.m.statesCount ≤ 2 ^ g.size := by
    unfold compile at hb
    rw [Option.map_eq_some_iff] at hb
    obtain ⟨k, hk, rfl⟩ := hb
    rw [(compileCanonized_m P b2 k).1]
    exact (Nat.mod_le _ _).trans (C20_at_most_exponential hg dg hk)
  have hroom : GlueRoom P a b true true [f.Lang] [g.Lang] base base' 0 := by
    refine ⟨al, sp, al', sp', by decide, (by show (1 + 1 + 1) * (glueLimit 0 + 1) < 2 ^ 32; decide), fun _ => ⟨ea, ?_⟩, fun _ => ⟨eb, ?_⟩⟩
    · exact fits_of_counts hP.real al' sp' (by omega) (by omega) (by omega)
    · exact fits_of_counts hP.real al' sp' (by omega) (by omega) (by omega)
  obtain ⟨s, e1, e2, -⟩ := C26_glue (nul := nul) hP va vb ra rb hroom
  refine ⟨s, e1, e2 ?_⟩
  rintro ⟨-, -, h⟩
  refine C26_small_product_succeeds va vb _ ?_ h
  calc a.m.statesCount * b.m.statesCount ≤ 2 ^ f.size * 2 ^ g.size := Nat.mul_le_mul sa sb
    _ = 2 ^ (f.size + g.size) := (Nat.pow_add ..).symm
    _ ≤ 2 ^ 16 := Nat.pow_le_pow_right (by omega) hsz
    _ ≤ glueLimit 0 + 1 := by decide

/-- `ab` anywhere, glued with `cd` anywhere: the hypotheses of `C26_glue` are met at all addresses. -/
example (P : Policy) (hP : Typedef P) (nul : Multi) (b1 b2 base base' : Nat) (h1 : b1 % 8 = 0) (h2 : b2 % 8 = 0) (h1' : b1 ≤ 2 ^ 63)
    (h2' : b2 ≤ 2 ^ 63) (al : base % 8 = 0) (sp : base ≤ 2 ^ 63) (al' : base' % 8 = 0) (sp' : base' ≤ 2 ^ 63) :
    ∃ f g a b s, build (.surround (.lit [97, 98])) = some f ∧ build (.surround (.lit [99, 100])) = some g ∧
      compile P b1 f = some a ∧ compile P b2 g = some b ∧ glue P nul true true base base' a b = .ok s ∧
      Recognizes P s [(Expr.surround (.lit [97, 98])).den, (Expr.surround (.lit [99, 100])).den] := by
  have k1 : Expr.Ok (.surround (.lit [97, 98])) := show IsWord [97, 98] by unfold IsWord; decide
  have k2 : Expr.Ok (.surround (.lit [99, 100])) := show IsWord [99, 100] by unfold IsWord; decide
  have hf : build (.surround (.lit [97, 98])) = some (Fsm.init.appendStr [97, 98]).surround := rfl
  have hg : build (.surround (.lit [99, 100])) = some (Fsm.init.appendStr [99, 100]).surround := rfl
  obtain ⟨gf, lf, -⟩ := build_spec _ k1 _ hf
  obtain ⟨gg, lg, -⟩ := build_spec _ k2 _ hg
  have zf : (Fsm.init.appendStr [97, 98]).surround.size ≤ 8 := by decide +kernel
  have zg : (Fsm.init.appendStr [99, 100]).surround.size ≤ 8 := by decide +kernel
  have df : (Fsm.init.appendStr [97, 98]).surround.determined = false := abAnywhere_undetermined
  have dg : (Fsm.init.appendStr [99, 100]).surround.determined = false := by
    simp [Fsm.surround, Fsm.prependAnything, Fsm.appendAnything, Fsm.appendStr, Fsm.init, Fsm.appendChar]
  obtain ⟨cf, hcf⟩ := canonize_small gf (by omega)
  obtain ⟨cg, hcg⟩ := canonize_small gg (by omega)
  have ha : compile P b1 (Fsm.init.appendStr [97, 98]).surround = some (compileCanonized P b1 cf) := by unfold compile; rw [hcf]; rfl
  have hb : compile P b2 (Fsm.init.appendStr [99, 100]).surround = some (compileCanonized P b2 cg) := by unfold compile; rw [hcg]; rfl
  obtain ⟨s, e1, -, e2⟩ := glue_of_compiled (nul := nul) hP gf gg (build_tagsIn _ or_mod4 _ _ hf) (build_tagsIn _ or_mod4 _ _ hg) df dg
    ha hb h1 h2 h1' h2' al sp al' sp' (by omega)
  rw [lf, lg] at e2
  exact ⟨_, _, _, _, s, hf, hg, ha, hb, e1, e2⟩

end Pire.Props
