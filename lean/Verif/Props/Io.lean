import Verif.Proofs.Io
import Verif.Props.Glue

/-!
# Properties C35 (Save and Load) and C36 (Mmap) for the multi-regexp scanners

`save P pad rnull tmp s` is what `s.Save(&stream)` writes (`pad` = the unspecified padding bytes of the `Locals` structure,
`rnull` = the relocatable empty scanner, `tmp` = where the temporary relocatable copy of a nonrelocatable scanner is allocated);
`load P null rnull tmp base b` is `Load` from a stream that throws at its end: the scanner, its block at `base`, and the rest of
the stream, or `none` if an exception is thrown.

`Storable`: the counts fit in their 32-bit fields and the signatures are those of the type; every scanner made by the library
is so (`C35_storable_*`). `Fits`: the block is 8-aligned, inside the address space, and below 2 GB if relocatable.
-/

namespace Pire.Props

open Pire Pire.Spec Pire.Scn Pire.Multi Pire.Fsm Pire.Io

section
variable {P : Policy} {s null rnull : Multi} {tmp tmp' base : Nat} {pad : Nat → Fin 256}

theorem Typedef.toReloc (hP : Typedef P) : Typedef P.toReloc := by
  rcases hP with rfl | rfl | rfl | rfl
  · exact .inl rfl
  · exact .inr (.inl rfl)
  · exact .inl rfl
  · exact .inr (.inl rfl)

theorem Typedef.eq_toReloc (hr : P.reloc = .relocatable) : P.toReloc = P := by
  cases P; simp only at hr; subst hr; rfl

theorem fits_congr {m m' : Locals} (h1 : m'.statesCount = m.statesCount) (h2 : m'.lettersCount = m.lettersCount)
    (h3 : m'.finalTableSize = m.finalTableSize) (h : Fits P base m) : Fits P base m' := by
  obtain ⟨e1, e2⟩ := bufSize_congr (P := P) h1 h2 h3
  exact ⟨h.align, by rw [e1]; exact h.space, fun hr => by
    have := h.disp hr
    unfold rowBytes rowSize at this ⊢
    rw [h1, h2]; exact this⟩

/-- What `Load` must restore: the same languages, the same counts, the same states. -/
structure SameScanner (P : Policy) (s s' : Multi) : Prop where
  states : s'.m.statesCount = s.m.statesCount
  letters : s'.m.lettersCount = s.m.lettersCount
  regexps : s'.regexpsCount = s.regexpsCount
  finals : s'.m.finalTableSize = s.m.finalTableSize
  empty : s'.empty = s.empty
  /-- the same letters are indistinguishable -/
  classes : ∀ c, IsLetter c → s'.get P (.letter c) = s.get P (.letter c)
  /-- after any word, the same state and the same flags -/
  states' : ∀ w, IsWord w → s'.stateIndex P ((s'.scn P).after (s'.scn P).initial w) = s.stateIndex P ((s.scn P).after (s.scn P).initial w)
  final : ∀ w, IsWord w → (s'.scn P).final ((s'.scn P).after (s'.scn P).initial w) = (s.scn P).final ((s.scn P).after (s.scn P).initial w)
  dead : ∀ w, IsWord w → (s'.scn P).dead ((s'.scn P).after (s'.scn P).initial w) = (s.scn P).dead ((s.scn P).after (s.scn P).initial w)
  accepted : ∀ w, IsWord w → s'.acceptedRegexps P ((s'.scn P).after (s'.scn P).initial w) =
    s.acceptedRegexps P ((s.scn P).after (s.scn P).initial w)

theorem SameScanner.recognizes {s s' : Multi} (h : SameScanner P s s') {Ls : List (Language Nat)} (hR : Recognizes P s Ls) :
    Recognizes P s' Ls :=
  ⟨h.regexps.trans hR.count, fun w hw => (h.accepted w hw).trans (hR.accepted w hw),
    fun w hw => by rw [h.final w hw]; exact hR.final w hw, fun w hw => by rw [h.dead w hw]; exact hR.dead w hw⟩

theorem same_of_repr {s s' : Multi} {T : Tbl} (h : Repr P s T) (h' : Repr P s' T) (he : s'.empty = s.empty)
    (hf : s'.m.finalTableSize = s.m.finalTableSize) : SameScanner P s s' := by
  have i1 : (s.scn P).initial = s.indexToState P T.q0 := h.initial
  have i2 : (s'.scn P).initial = s'.indexToState P T.q0 := h'.initial
  have a1 : ∀ w, IsWord w → (s.scn P).after (s.scn P).initial w = s.indexToState P (T.after T.q0 w) := fun w hw => by
    rw [i1, h.toCore.after_eq h.wf.q0_lt hw]
  have a2 : ∀ w, IsWord w → (s'.scn P).after (s'.scn P).initial w = s'.indexToState P (T.after T.q0 w) := fun w hw => by
    rw [i2, h'.toCore.after_eq h.wf.q0_lt hw]
  have hl : ∀ w, IsWord w → T.after T.q0 w < T.n := fun w hw => h.wf.after_lt h.wf.q0_lt hw
  refine ⟨h'.states.trans h.states.symm, h'.letters.trans h.letters.symm, ?_, hf, he, ?_, ?_, ?_, ?_, ?_⟩
  · unfold regexpsCount
    rw [he, h'.regexps, h.regexps]
  · intro c hc; rw [h'.letter c hc, h.letter c hc]
  · intro w hw; rw [a1 w hw, a2 w hw, stateIndex_indexToState, stateIndex_indexToState]
  · intro w hw; rw [a1 w hw, a2 w hw, h.toCore.final_eq (hl w hw), h'.toCore.final_eq (hl w hw)]
  · intro w hw; rw [a1 w hw, a2 w hw, h.toCore.dead_eq (hl w hw), h'.toCore.dead_eq (hl w hw)]
  · intro w hw; rw [a1 w hw, a2 w hw, h.toCore.acceptedRegexps_eq (hl w hw), h'.toCore.acceptedRegexps_eq (hl w hw)]

/-! ### C35 -/

/-- Saving a scanner and loading it, whatever follows in the stream: exactly the written bytes are consumed, and the loaded scanner
is the same. -/
theorem C35_round_trip (hP : Typedef P) (hv : Valid P s) (hm : Storable P s.m) (he : s.empty = false)
    (h1 : Fits P.toReloc tmp s.m) (h2 : Fits P.toReloc tmp' s.m) (h3 : Fits P base s.m) (rest : Bytes) :
    ∃ s', load P null rnull tmp' base (save P pad rnull tmp s ++ rest) = some (s', rest) ∧ SameScanner P s s' ∧ Valid P s' ∧
      Storable P s'.m ∧ s'.base = base := by
  obtain ⟨T, hT⟩ := hv
  cases hr : P.reloc with
  | relocatable =>
    obtain ⟨s', e1, e2, e3, e4⟩ := loadReloc_saveReloc (null := null) hr hP.real hT hm he h3 pad rest
    have hf' : Fits P s'.base s'.m := by rw [e3]; exact fits_congr e2.states e2.letters e2.finals h3
    have hT' := e2.repr hP.real hr hT hf'
    refine ⟨s', ?_, same_of_repr hT hT' (by rw [e2.empty, he]) e2.finals, ⟨T, hT'⟩, e4, e3⟩
    unfold load save
    rw [hr]
    exact e1
  | nonrelocatable =>
    have hPr := hP.toReloc
    have hmk : P.toReloc.masks = P.masks := rfl
    obtain ⟨c1, c2, c3, c4, c5, c6, c7, c8⟩ := deepCopy_m P.toReloc P tmp s
    have hd := deepCopy_repr (base := tmp) hPr.real hP.real hmk hT (fits_congr c1 c2 c3 h1)
    obtain ⟨s1, e1, e2, e3, e4⟩ := loadReloc_saveReloc (null := rnull) (base := tmp') rfl hPr.real hd (storable_deepCopy tmp hm) c5
      (fits_congr c1 c2 c3 h2) pad rest
    have k1 := e2.states.trans c1
    have k2 := e2.letters.trans c2
    have k3 := e2.finals.trans c3
    have hf1 : Fits P.toReloc s1.base s1.m := by rw [e3]; exact fits_congr k1 k2 k3 h2
    have hT1 := e2.repr hPr.real rfl hd hf1
    obtain ⟨d1, d2, d3, d4, d5, d6, d7, d8⟩ := deepCopy_m P P.toReloc base s1
    have hT2 := deepCopy_repr (base := base) hP.real hPr.real hmk.symm hT1 (fits_congr (d1.trans k1) (d2.trans k2) (d3.trans k3) h3)
    refine ⟨deepCopy P P.toReloc base s1, ?_, same_of_repr hT hT2 (by rw [d5, he]) (d3.trans k3), ⟨T, hT2⟩, storable_deepCopy base e4, d4⟩
    unfold load save convert
    rw [hr]
    simp only
    rw [if_neg (by rw [he]; decide), e1, Option.map_some, if_neg (by rw [e2.empty]; decide)]

/-- The same for the empty scanner. -/
theorem C35_empty_round_trip (hP : Typedef P) (hm : Storable P s.m) (hmr : Storable P.toReloc rnull.m) (he : s.empty = true)
    (her : rnull.empty = true) (rest : Bytes) :
    load P null rnull tmp' base (save P pad rnull tmp s ++ rest) = some (null, rest) := by
  cases hr : P.reloc with
  | relocatable =>
    unfold load save
    rw [hr]
    exact loadReloc_saveEmpty hP.real hm he pad rest
  | nonrelocatable =>
    unfold load save convert
    rw [hr]
    simp only
    rw [if_pos he, loadReloc_saveEmpty hP.toReloc.real hmr her pad rest, Option.map_some, if_pos her]

/-- Loading keeps languages: what is loaded recognises the languages of what was saved. -/
theorem C35_loaded_recognizes (hP : Typedef P) (hv : Valid P s) (hm : Storable P s.m) (he : s.empty = false) {Ls : List (Language Nat)}
    (hR : Recognizes P s Ls) (h1 : Fits P.toReloc tmp s.m) (h2 : Fits P.toReloc tmp' s.m) (h3 : Fits P base s.m) (rest : Bytes) :
    ∃ s', load P null rnull tmp' base (save P pad rnull tmp s ++ rest) = some (s', rest) ∧ Recognizes P s' Ls := by
  obtain ⟨s', e1, e2, -⟩ := C35_round_trip (null := null) (rnull := rnull) (pad := pad) hP hv hm he h1 h2 h3 rest
  exact ⟨s', e1, e2.recognizes hR⟩

/-- For the relocatable types saving the loaded scanner writes the same bytes again. -/
theorem C35_resave_identical (hP : Typedef P) (hr : P.reloc = .relocatable) (hv : Valid P s) (hm : Storable P s.m) (he : s.empty = false)
    (h3 : Fits P base s.m) {s' : Multi} {rest : Bytes} (hl : load P null rnull tmp' base (save P pad rnull tmp s ++ rest) = some (s', rest)) :
    save P pad rnull tmp s' = save P pad rnull tmp s := by
  obtain ⟨T, hT⟩ := hv
  obtain ⟨s'', e1, e2, e3, e4⟩ := loadReloc_saveReloc (null := null) hr hP.real hT hm he h3 pad rest
  unfold load save at hl
  rw [hr] at hl
  simp only at hl
  rw [e1, Option.some.injEq, Prod.mk.injEq] at hl
  obtain ⟨rfl, -⟩ := hl
  have hf' : Fits P s''.base s''.m := by rw [e3]; exact fits_congr e2.states e2.letters e2.finals h3
  unfold save
  rw [hr]
  exact saveReloc_image e2 hT hr he hm e4 hf' pad

theorem reader_load (P : Policy) (null rnull : Multi) (tmp base : Nat) : Reader (load P null rnull tmp base) := by
  cases hr : P.reloc with
  | relocatable =>
    have : load P null rnull tmp base = loadReloc P null base := by
      funext b; unfold load; rw [hr]
    rw [this]; exact reader_loadReloc P null base
  | nonrelocatable =>
    have : load P null rnull tmp base =
        fun b => (loadReloc P.toReloc rnull tmp b).map fun r => (convert P P.toReloc null base r.1, r.2) := by
      funext b; unfold load; rw [hr]
    rw [this]
    intro b a r h
    rw [Option.map_eq_some_iff] at h
    obtain ⟨⟨x, r'⟩, h1, h2⟩ := h
    simp only [Prod.mk.injEq] at h2
    obtain ⟨rfl, rfl⟩ := h2
    obtain ⟨u, e1, e2⟩ := reader_loadReloc P.toReloc rnull tmp b x r' h1
    exact ⟨u, e1, fun r'' => by beta_reduce; rw [e2]; rfl⟩

/-- Loading never looks beyond what it consumes: what follows in the stream has no influence. -/
theorem C35_rest_is_untouched {b rest : Bytes} {s' : Multi} (h : load P null rnull tmp base b = some (s', rest)) :
    ∃ used, b = used ++ rest ∧ ∀ rest', load P null rnull tmp base (used ++ rest') = some (s', rest') :=
  reader_load P null rnull tmp base b s' rest h

/-- A stream cut anywhere is rejected. -/
theorem C35_truncated_rejected (hP : Typedef P) (hv : Valid P s) (hm : Storable P s.m) (hmr : Storable P.toReloc rnull.m)
    (her : rnull.empty = true) (h1 : Fits P.toReloc tmp s.m) (h2 : Fits P.toReloc tmp' s.m) (h3 : Fits P base s.m) {k : Nat}
    (hk : k < (save P pad rnull tmp s).length) : load P null rnull tmp' base ((save P pad rnull tmp s).take k) = none := by
  have : ∃ s', load P null rnull tmp' base (save P pad rnull tmp s) = some (s', []) := by
    cases he : s.empty with
    | false =>
      obtain ⟨s', e, -⟩ := C35_round_trip (null := null) (rnull := rnull) (pad := pad) hP hv hm he h1 h2 h3 []
      rw [List.append_nil] at e
      exact ⟨s', e⟩
    | true =>
      have e := C35_empty_round_trip (null := null) (pad := pad) (tmp := tmp) (tmp' := tmp') (base := base) hP hm hmr he her []
      rw [List.append_nil] at e
      exact ⟨null, e⟩
  obtain ⟨s', e⟩ := this
  exact (reader_load P null rnull tmp' base).truncated e hk

/-- What `Load` insists on, for any stream at all: at least 80 bytes; the magic word, the sizes of pointers and words, version 6
or 7, the type code of `Scanner`, the size of the structure, and the signature of the shortcutting policy. -/
theorem C35_accepted_streams {b rest : Bytes} {s' : Multi} (h : load P null rnull tmp base b = some (s', rest)) :
    80 ≤ b.length ∧ num (b.take 4) = 0x45524950 ∧ (num ((b.drop 4).take 4) = 7 ∨ num ((b.drop 4).take 4) = 6) ∧
    num ((b.drop 8).take 4) = 8 ∧ num ((b.drop 12).take 4) = 16 ∧ num ((b.drop 16).take 4) = 1 ∧ num ((b.drop 20).take 4) = 48 ∧
    num ((b.drop 64).take 8) = P.shortSignature := by
  have h' : ∃ null' base' s'', loadReloc P.toReloc null' base' b = some (s'', rest) := by
    unfold load at h
    cases hr : P.reloc with
    | relocatable =>
      rw [hr] at h
      simp only at h
      exact ⟨null, base, s', by rw [Typedef.eq_toReloc hr]; exact h⟩
    | nonrelocatable =>
      rw [hr] at h
      simp only at h
      rw [Option.map_eq_some_iff] at h
      obtain ⟨⟨x, r⟩, e1, e2⟩ := h
      simp only [Prod.mk.injEq] at e2
      exact ⟨rnull, tmp, x, by rw [e1, e2.2]⟩
  obtain ⟨null', base', s'', h'⟩ := h'
  obtain ⟨hx, hy, lx, ly, ex, ey, blk, e, l1, l2, l3, l4, l5, l6, hvd, hsg, -⟩ := loadReloc_some h'
  rw [tail_header, List.length_eq_zero_iff] at l2
  rw [tail_locals, List.length_eq_zero_iff] at l4
  rw [tail_one] at l6
  subst l2; subst l4
  have hl : 80 ≤ b.length := by
    rw [e]; simp only [List.length_append, l1, l3, l5, l6, headerLen, localsLen, List.length_nil]; omega
  have t : ∀ i n, i + n ≤ 24 → (b.drop i).take n = (hx.drop i).take n := by
    intro i n hin
    rw [e, List.append_nil, List.drop_append_of_le_length (by rw [l1]; unfold headerLen; omega),
      List.take_append_of_le_length (by rw [List.length_drop, l1]; unfold headerLen; omega)]
  have t2 : (b.drop 64).take 8 = (lx.drop 40).take 8 := by
    rw [e, List.append_nil, List.drop_append, l1, show 64 - headerLen = 40 from rfl,
      show hx.drop 64 = [] from List.drop_eq_nil_of_le (by rw [l1]; unfold headerLen; omega), List.nil_append,
      List.drop_append_of_le_length (by rw [l3]; unfold localsLen; omega),
      List.take_append_of_le_length (by rw [List.length_drop, l3]; unfold localsLen; omega)]
  have t0 := t 0 4 (by omega)
  rw [List.drop_zero, List.drop_zero] at t0
  rw [t0, t 4 4 (by omega), t 8 4 (by omega), t 12 4 (by omega), t 16 4 (by omega), t 20 4 (by omega), t2]
  unfold Header.valid Header.ofBytes localsLen at hvd
  simp only [Bool.and_eq_true, Bool.not_eq_true', Bool.or_eq_false_iff, Bool.and_eq_false_iff, decide_eq_false_iff_not, ne_eq,
    not_not, Nat.succ_ne_self] at hvd
  have hsg' : num ((lx.drop 40).take 8) = P.toReloc.shortSignature := hsg
  refine ⟨hl, by tauto, by tauto, by tauto, by tauto, ?_, ?_, hsg'⟩
  · obtain ⟨⟨⟨-, -⟩, hh⟩, -⟩ := hvd
    rcases hh with hh | hh
    · rcases hh with hh | hh
      · exact absurd hh (by simp)
      · exact hh.symm
    · simp at hh
  · obtain ⟨⟨⟨-, -⟩, -⟩, hh⟩ := hvd
    rcases hh with hh | hh
    · omega
    · exact hh

/-! ### C36

`mmap P null mem ptr size` is `Mmap(ptr, size)` where `mem` is the memory of the process. Pointers are 64-bit numbers;
`ptr + 8 * size < 2 ^ 64` keeps the pointer arithmetic of `AlignPtr` (which takes `size` for a number of words) from wrapping. -/

theorem mapped_saved (hP : Typedef P) (hr : P.reloc = .relocatable) (hv : Valid P s) (hm : Storable P s.m) (he : s.empty = false)
    {mem : Mem} {ptr size : Nat} (ha : ptr % 8 = 0) (hs : ptr + 8 * size < 2 ^ 64)
    (hmem : memBytes mem ptr (saveReloc P pad s).length = saveReloc P pad s) (hsz : (saveReloc P pad s).length ≤ size + 7) :
    ∃ s', mmap P null mem ptr size = .ok s' (ptr + (saveReloc P pad s).length) ∧ SameScanner P s s' ∧ Valid P s' ∧
      s'.base = ptr + 80 ∧ s'.mem = mem := by
  obtain ⟨T, hT⟩ := hv
  obtain ⟨m1, m2, m3, m4⟩ := saved_in_memory hP.real hm hmem
  have hl := length_saveReloc P pad s
  rw [he, if_neg (by decide)] at hl
  rw [hl] at hsz ⊢
  have hbl := bufSize_lt hr hT.fits hm
  have hbp : 8 ≤ bufSize P s.m := by
    have := bufSize_ge P s.m
    have := rowBytes_pos P s.m
    have h0 := hT.wf.q0_lt
    rw [← hT.states] at h0
    have h8 := bufSize_mod8 P s.m
    have : 0 < rowBytes P s.m * s.m.statesCount := Nat.mul_pos (by omega) (by omega)
    omega
  have hbuf : bufSize P (savedLocals s) = bufSize P s.m := (bufSize_congr (savedLocals_states s) (savedLocals_letters s) (savedLocals_finals s)).1
  have hfit : Fits P (ptr + 80) s.m := ⟨by omega, by omega, hT.fits.disp⟩
  have hi := mappedAt_image hr hT hm hfit (m4 he)
  have hT' := hi.repr hP.real hr hT (fits_congr hi.states hi.letters hi.finals hfit)
  refine ⟨mappedAt mem (ptr + 80) (savedLocals s), ?_, same_of_repr hT hT' (by rw [hi.empty, he]) hi.finals, ⟨T, hT'⟩, rfl, rfl⟩
  have hsl := savedLocals_storable hm
  rw [mmap_eq P null mem ha hs, m2, m3, he, if_neg (by omega), if_neg (by rw [m1]; decide), if_neg (by simpa using hsl.reloc),
    if_neg (by simpa using hsl.short), if_neg (by omega), if_neg (by omega), if_neg (by decide), hbuf,
    Nat.mod_eq_of_lt (by omega), if_neg (by omega), Nat.add_assoc]

/-- Mapping the saved bytes gives the same scanner, its block inside the given memory, and a pointer just past those bytes. -/
theorem C36_mmap_saved (hP : Typedef P) (hr : P.reloc = .relocatable) (hv : Valid P s) (hm : Storable P s.m) (he : s.empty = false)
    {mem : Mem} {ptr size : Nat} (ha : ptr % 8 = 0) (hs : ptr + 8 * size < 2 ^ 64)
    (hmem : memBytes mem ptr (save P pad rnull tmp s).length = save P pad rnull tmp s) (hsz : (save P pad rnull tmp s).length ≤ size) :
    ∃ s', mmap P null mem ptr size = .ok s' (ptr + (save P pad rnull tmp s).length) ∧ SameScanner P s s' ∧ Valid P s' ∧
      s'.mem = mem ∧ ptr ≤ s'.base ∧ s'.base + bufSize P s'.m ≤ ptr + size := by
  have e : save P pad rnull tmp s = saveReloc P pad s := by unfold save; rw [hr]
  rw [e] at hmem hsz ⊢
  obtain ⟨s', h1, h2, h3, h4, h5⟩ := mapped_saved (null := null) hP hr hv hm he ha hs hmem (by omega)
  refine ⟨s', h1, h2, h3, h5, by omega, ?_⟩
  rw [length_saveReloc, he, if_neg (by decide)] at hsz
  rw [h4, (bufSize_congr h2.states h2.letters h2.finals).1]
  omega

/-- Mapping and loading agree. -/
theorem C36_mmap_equals_load (hP : Typedef P) (hr : P.reloc = .relocatable) (hv : Valid P s) (hm : Storable P s.m) (he : s.empty = false)
    {mem : Mem} {ptr size : Nat} (ha : ptr % 8 = 0) (hs : ptr + 8 * size < 2 ^ 64) (h3 : Fits P base s.m)
    (hmem : memBytes mem ptr (save P pad rnull tmp s).length = save P pad rnull tmp s) (hsz : (save P pad rnull tmp s).length ≤ size)
    {Ls : List (Language Nat)} (hR : Recognizes P s Ls) :
    ∃ sm sl p, mmap P null mem ptr size = .ok sm p ∧ load P null rnull tmp' base (save P pad rnull tmp s) = some (sl, []) ∧
      Recognizes P sm Ls ∧ Recognizes P sl Ls := by
  obtain ⟨sm, e1, e2, -⟩ := C36_mmap_saved (null := null) hP hr hv hm he ha hs hmem hsz
  obtain ⟨T, hT⟩ := hv
  obtain ⟨sl, l1, l2, l3, l4⟩ := loadReloc_saveReloc (null := null) hr hP.real hT hm he h3 pad []
  have hf' : Fits P sl.base sl.m := by rw [l3]; exact fits_congr l2.states l2.letters l2.finals h3
  refine ⟨sm, sl, _, e1, ?_, e2.recognizes hR, (same_of_repr hT (l2.repr hP.real hr hT hf') (by rw [l2.empty, he]) l2.finals).recognizes hR⟩
  rw [List.append_nil] at l1
  unfold load save
  rw [hr]
  exact l1

/-- Mapping a saved empty scanner gives the empty scanner. -/
theorem C36_mmap_empty (hP : Typedef P) (hr : P.reloc = .relocatable) (hm : Storable P s.m) (he : s.empty = true)
    {mem : Mem} {ptr size : Nat} (ha : ptr % 8 = 0) (hs : ptr + 8 * size < 2 ^ 64)
    (hmem : memBytes mem ptr (save P pad rnull tmp s).length = save P pad rnull tmp s) (hsz : (save P pad rnull tmp s).length ≤ size) :
    mmap P null mem ptr size = .ok null (ptr + (save P pad rnull tmp s).length) := by
  have e : save P pad rnull tmp s = saveReloc P pad s := by unfold save; rw [hr]
  rw [e] at hmem hsz ⊢
  obtain ⟨m1, m2, m3, m4⟩ := saved_in_memory hP.real hm hmem
  have hl := length_saveReloc P pad s
  rw [he, if_pos rfl] at hl
  rw [hl] at hsz ⊢
  have hsl := savedLocals_storable hm
  rw [mmap_eq P null mem ha hs, m2, m3, he, if_neg (by omega), if_neg (by rw [m1]; decide), if_neg (by simpa using hsl.reloc),
    if_neg (by simpa using hsl.short), if_neg (by omega), if_neg (by omega), if_pos (by decide)]

/-- A misaligned pointer is rejected. -/
theorem C36_misaligned_rejected {mem : Mem} {ptr size : Nat} (ha : ptr % 8 ≠ 0) : mmap P null mem ptr size = .throws :=
  mmap_misaligned P null mem ha

/-- Whatever the memory contains: a mapped scanner and the returned pointer are within the given range and seven more bytes, and
except for `size = 72` no byte outside of the range is looked at before the scanner is returned. Missing from the property: the
seven bytes, and the exception; both are real, see `C36_short_input_accepted` and `C36_reads_past_the_end`. -/
theorem C36_stays_inside_partial {mem : Mem} {ptr size : Nat} (hs : ptr + 8 * size < 2 ^ 64) :
    (size ≠ 72 → mmap P null mem ptr size ≠ .overread) ∧
    ∀ s' p, mmap P null mem ptr size = .ok s' p → ptr ≤ p ∧ p ≤ ptr + size + 7 ∧ (s' = null ∨
      (s'.mem = mem ∧ s'.base = ptr + 80 ∧ s'.base + bufSize P s'.m % 2 ^ 64 = p)) := by
  by_cases ha : ptr % 8 = 0
  swap
  · rw [mmap_misaligned P null mem ha]
    exact ⟨fun _ h => (by cases h), fun _ _ h => (by cases h)⟩
  rw [mmap_eq P null mem ha hs]
  generalize hm : localsOfBytes (memBytes mem (ptr + 24) 48) = m
  split_ifs with h1 h2 h3 h4 h5 h6 h7 h8
  · exact ⟨fun _ h => (by cases h), fun _ _ h => (by cases h)⟩
  · exact ⟨fun _ h => (by cases h), fun _ _ h => (by cases h)⟩
  · exact ⟨fun _ h => (by cases h), fun _ _ h => (by cases h)⟩
  · exact ⟨fun _ h => (by cases h), fun _ _ h => (by cases h)⟩
  · exact ⟨fun h => absurd h5 h, fun _ _ h => (by cases h)⟩
  · exact ⟨fun _ h => (by cases h), fun _ _ h => (by cases h)⟩
  · refine ⟨fun _ h => (by cases h), fun s' p h => ?_⟩
    cases h
    exact ⟨by omega, by omega, .inl rfl⟩
  · exact ⟨fun _ h => (by cases h), fun _ _ h => (by cases h)⟩
  · refine ⟨fun _ h => (by cases h), fun s' p h => ?_⟩
    rw [MapResult.ok.injEq] at h
    obtain ⟨rfl, rfl⟩ := h
    have hb : bufSize P (mappedAt mem (ptr + 80) m).m = bufSize P m := (bufSize_congr (withInitial_states _ _) (withInitial_letters _ _)
      (withInitial_finals _ _)).1
    exact ⟨by omega, by omega, .inr ⟨rfl, rfl, by rw [hb]; rfl⟩⟩

/-- Input shorter than what was saved by more than seven bytes is rejected (except for `size = 72`, where a byte past the
end is read). Missing from the property: the last seven bytes. -/
theorem C36_short_rejected_partial (hP : Typedef P) (hr : P.reloc = .relocatable) (hv : Valid P s) (hm : Storable P s.m)
    (he : s.empty = false) {mem : Mem} {ptr size : Nat} (hs : ptr + 8 * size < 2 ^ 64)
    (hmem : memBytes mem ptr (save P pad rnull tmp s).length = save P pad rnull tmp s)
    (hsz : size + 7 < (save P pad rnull tmp s).length) (h72 : size ≠ 72) : mmap P null mem ptr size = .throws := by
  by_cases ha : ptr % 8 = 0
  swap
  · exact mmap_misaligned P null mem ha
  have e : save P pad rnull tmp s = saveReloc P pad s := by unfold save; rw [hr]
  rw [e] at hmem hsz
  obtain ⟨T, hT⟩ := hv
  obtain ⟨m1, m2, m3, m4⟩ := saved_in_memory hP.real hm hmem
  have hl := length_saveReloc P pad s
  rw [he, if_neg (by decide)] at hl
  rw [hl] at hsz
  have hbl := bufSize_lt hr hT.fits hm
  have hbuf : bufSize P (savedLocals s) = bufSize P s.m := (bufSize_congr (savedLocals_states s) (savedLocals_letters s) (savedLocals_finals s)).1
  have hsl := savedLocals_storable hm
  rw [mmap_eq P null mem ha hs, m2, m3, he]
  by_cases h1 : size < 72
  · rw [if_pos h1]
  rw [if_neg h1, if_neg (by rw [m1]; decide), if_neg (by simpa using hsl.reloc), if_neg (by simpa using hsl.short), if_neg h72]
  by_cases h2 : size = 73
  · rw [if_pos h2]
  rw [if_neg h2, if_neg (by decide), hbuf, Nat.mod_eq_of_lt (by omega), if_pos (by omega)]

/-- DEFECT: input that lacks up to seven of the saved bytes is accepted, and the scanner's block ends outside of it. -/
theorem C36_short_input_accepted (hP : Typedef P) (hr : P.reloc = .relocatable) (hv : Valid P s) (hm : Storable P s.m)
    (he : s.empty = false) {mem : Mem} {ptr size : Nat} (ha : ptr % 8 = 0) (hs : ptr + 8 * size < 2 ^ 64)
    (hmem : memBytes mem ptr (save P pad rnull tmp s).length = save P pad rnull tmp s)
    (h1 : size < (save P pad rnull tmp s).length) (h2 : (save P pad rnull tmp s).length ≤ size + 7) :
    ∃ s' p, mmap P null mem ptr size = .ok s' p ∧ ptr + size < s'.base + bufSize P s'.m := by
  have e : save P pad rnull tmp s = saveReloc P pad s := by unfold save; rw [hr]
  rw [e] at hmem h1 h2
  obtain ⟨s', g1, g2, g3, g4, g5⟩ := mapped_saved (null := null) hP hr hv hm he ha hs hmem h2
  refine ⟨s', _, g1, ?_⟩
  rw [length_saveReloc, he, if_neg (by decide)] at h1
  rw [g4, (bufSize_congr g2.states g2.letters g2.finals).1]
  omega

/-- DEFECT: given exactly the header and the locals, `Mmap` reads the flag after them. -/
theorem C36_reads_past_the_end (hP : Typedef P) (hr : P.reloc = .relocatable) (hm : Storable P s.m) {mem : Mem} {ptr : Nat}
    (ha : ptr % 8 = 0) (hs : ptr + 8 * 72 < 2 ^ 64)
    (hmem : memBytes mem ptr (save P pad rnull tmp s).length = save P pad rnull tmp s) : mmap P null mem ptr 72 = .overread := by
  have e : save P pad rnull tmp s = saveReloc P pad s := by unfold save; rw [hr]
  rw [e] at hmem
  obtain ⟨m1, m2, m3, m4⟩ := saved_in_memory hP.real hm hmem
  have hsl := savedLocals_storable hm
  rw [mmap_eq P null mem ha hs, m2, if_neg (by omega), if_neg (by rw [m1]; decide), if_neg (by simpa using hsl.reloc),
    if_neg (by simpa using hsl.short), if_pos rfl]

/-- Anything mapped has the right magic word, sizes, version, type and signatures (also the relocation signature, which `Load`
does not check). -/
theorem C36_accepted_memory {mem : Mem} {ptr size p : Nat} {s' : Multi} (hs : ptr + 8 * size < 2 ^ 64)
    (h : mmap P null mem ptr size = .ok s' p) :
    ptr % 8 = 0 ∧ 74 ≤ size ∧ (Header.ofBytes (memBytes mem ptr 24)).valid 1 48 = true ∧
    (localsOfBytes (memBytes mem (ptr + 24) 48)).relocationSignature = P.reloc.signature ∧
    (localsOfBytes (memBytes mem (ptr + 24) 48)).shortcuttingSignature = P.shortSignature := by
  by_cases ha : ptr % 8 = 0
  swap
  · rw [mmap_misaligned P null mem ha] at h; cases h
  rw [mmap_eq P null mem ha hs] at h
  split_ifs at h with h1 h2 h3 h4 h5 h6
  · exact ⟨ha, by omega, by unfold localsLen at h2; simpa using h2, by simpa using h3, by simpa using h4⟩
  · exact ⟨ha, by omega, by unfold localsLen at h2; simpa using h2, by simpa using h3, by simpa using h4⟩

/-! ### Every scanner made by the library can be saved -/

theorem C35_storable_compiled {f : Fsm} (hs : compile P base f = some s) : Storable P s.m := storable_compile hs

theorem C35_storable_empty (hs : Multi.null P base = some s) : Storable P s.m := storable_null hs

theorem C35_storable_copied {P' : Policy} (hs : Storable P' s.m) : Storable P (deepCopy P P' base s).m := storable_deepCopy base hs

theorem C35_storable_glued {a b : Multi} {ownA ownB : Bool} {base' maxSize : Nat} (hn : Storable P null.m) (ha : Storable P a.m)
    (hb : Storable P b.m) (hs : glue P null ownA ownB base base' a b maxSize = .ok s) : Storable P s.m := storable_glue hn ha hb hs

end

/-! ### The hypotheses are met -/

theorem fits_compiled {P P' : Policy} {base base' : Nat} {f : Fsm} {s : Multi} (hP : Typedef P) (h : f.Good)
    (hs : compile P' base' f = some s) (ha : base % 8 = 0) (hb : base ≤ 2 ^ 63) (hn : f.determined = false) : Fits P base s.m := by
  obtain ⟨c1, c2, c3⟩ := compile_counts h hs hn
  exact fits_of_counts hP.real ha hb (by omega) (by omega) (by omega)

/-- The compiled pattern `ab`, saved and loaded elsewhere, still recognises its language; for every scanner type. -/
example (P : Policy) (hP : Typedef P) (pad : Nat → Fin 256) (rest : Bytes) :
    ∃ (s s' null rnull : Multi), Recognizes P s [abAnywhere.den] ∧
      load P null rnull 4096 8192 (save P pad rnull 1024 s ++ rest) = some (s', rest) ∧ Recognizes P s' [abAnywhere.den] := by
  have ok : abAnywhere.Ok := show IsWord [97, 98] by unfold IsWord; decide
  obtain ⟨f, s, hf, hs, hp, hR⟩ := abAnywhere_compiles P hP 64 rfl (by omega)
  obtain ⟨hg, -, -⟩ := build_spec abAnywhere ok _ hf
  have htg := build_tagsIn _ or_mod4 _ _ hf
  obtain ⟨v, he, -⟩ := compile_spec hP.real hg htg hs hp.align hp.space hp.small
  have hn : f.determined = false := by
    have hf0 : build abAnywhere = some (Fsm.init.appendStr [97, 98]).surround := rfl
    rw [hf0, Option.some.injEq] at hf
    rw [← hf]; exact abAnywhere_undetermined
  obtain ⟨s', e1, e2⟩ := C35_loaded_recognizes (null := s) (rnull := s) (pad := pad) hP v (C35_storable_compiled hs) he hR
    (fits_compiled (base := 1024) hP.toReloc hg hs rfl (by omega) hn) (fits_compiled (base := 4096) hP.toReloc hg hs rfl (by omega) hn)
    (fits_compiled (base := 8192) hP hg hs rfl (by omega) hn) rest
  exact ⟨s, s', s, s, hR, e1, e2⟩

/-- The same scanner saved into memory at address 4096 and mapped, with all its bytes, and with seven bytes missing. -/
example : ∃ (s s' s'' null : Multi) (mem : Mem) (n p : Nat), Recognizes scannerPolicy s [abAnywhere.den] ∧
    memBytes mem 4096 n = save scannerPolicy (fun _ => 0) null 0 s ∧
    mmap scannerPolicy null mem 4096 n = .ok s' (4096 + n) ∧ Recognizes scannerPolicy s' [abAnywhere.den] ∧
    mmap scannerPolicy null mem 4096 (n - 7) = .ok s'' p ∧ 4096 + (n - 7) < s''.base + bufSize scannerPolicy s''.m := by
  have hP : Typedef scannerPolicy := .inl rfl
  have ok : abAnywhere.Ok := show IsWord [97, 98] by unfold IsWord; decide
  obtain ⟨f, s, hf, hs, hp, hR⟩ := abAnywhere_compiles scannerPolicy hP 64 rfl (by omega)
  obtain ⟨hg, -, -⟩ := build_spec abAnywhere ok _ hf
  have htg := build_tagsIn _ or_mod4 _ _ hf
  obtain ⟨v, he, -⟩ := compile_spec hP.real hg htg hs hp.align hp.space hp.small
  have hm := C35_storable_compiled hs
  obtain ⟨T, hT⟩ := id v
  have hlen : (save scannerPolicy (fun _ => 0) s 0 s).length = 80 + bufSize scannerPolicy s.m := by
    refine (length_saveReloc scannerPolicy (fun _ => 0) s).trans ?_
    rw [he, if_neg (by decide)]
  have hbl := bufSize_lt rfl hT.fits hm
  generalize hb : save scannerPolicy (fun _ => 0) s 0 s = b at *
  have hmem : memBytes (blockMem 4096 b) 4096 b.length = b := by
    unfold memBytes blockMem
    apply List.ext_getElem
    · simp
    · intro i h1 h2
      rw [List.getElem_map, List.getElem_range, if_pos (by omega), Nat.add_sub_cancel_left, List.getD_eq_getElem?_getD,
        List.getElem?_eq_getElem h2, Option.getD_some]
  obtain ⟨s', e1, e2, -⟩ := C36_mmap_saved (pad := fun _ => 0) (rnull := s) (tmp := 0) (null := s) (mem := blockMem 4096 b) (ptr := 4096)
    (size := b.length) hP rfl v hm he rfl (by omega) (by rw [hb]; exact hmem) (by rw [hb])
  obtain ⟨s'', p', g1, g2⟩ := C36_short_input_accepted (pad := fun _ => 0) (rnull := s) (tmp := 0) (null := s) (mem := blockMem 4096 b)
    (ptr := 4096) (size := b.length - 7) hP rfl v hm he rfl (by omega) (by rw [hb]; exact hmem) (by rw [hb]; omega) (by rw [hb]; omega)
  rw [hb] at e1
  exact ⟨s, s', s'', s, blockMem 4096 b, b.length, p', hR, (by rw [hb]; exact hmem), e1, e2.recognizes hR, g1, g2⟩

end Pire.Props
