import Verif.Proofs.Lifetime
import Verif.Props.Glue
import Verif.Props.Simple
import Verif.Props.LoadedIo

/-!
# Scanner variables are values: the three classes
-/

namespace Pire
namespace Life

open Spec

/-! ### Scanner -/

section
open Multi
variable {P : Policy} {s : Multi} {T : Tbl} {m : Mem}

/-- Memory that is the same in the block. -/
def SameBlock (P : Policy) (s : Multi) (m : Mem) : Prop := ∀ i, s.base ≤ i → i < s.base + bufSize P s.m → m i = s.mem i

theorem get_sameBlock (h : SameBlock P s m) {c : Cell} (hc : Ok P s.m c) : ({ s with mem := m } : Multi).get P c = s.get P c := by
  have hi := inside hc
  show Scn.readLE m (s.base + off P s.m c) _ = Scn.readLE s.mem (s.base + off P s.m c) _
  apply readLE_shift_base
  intro i hl
  exact h _ (by omega) (by omega)

theorem repr_sameBlock (hP : P.Real) (h : SameBlock P s m) (hT : Repr P s T) : Repr P { s with mem := m } T := by
  have hmv : ∀ q < T.n, P.masks = 2 → ∀ i < 2, ∀ v, MaskVal P s q i v → MaskVal P { s with mem := m } q i v := by
    intro q hq hm i hi v hv j hj
    rw [get_sameBlock h (c := .mask q i j) ⟨hT.states ▸ hq, by omega, hj⟩]
    exact hv j hj
  refine ⟨⟨hT.wf, hT.fits, hT.states, hT.letters, hT.regexps, hT.initial, ?_, ?_, ?_, ?_⟩, ?_⟩
  · intro c hc
    rw [get_sameBlock h (c := .letter c) (show c < 264 from hc.1)]
    exact hT.letter c hc
  · intro q hq k hk
    rw [get_sameBlock h (c := .slot q (P.headerSize + k)) ⟨hT.states ▸ hq, by omega, by have := rowSize_ge P s.m; rw [hT.letters] at this; omega⟩, hT.jump q hq k hk]
    rfl
  · intro q hq
    rw [get_sameBlock h (c := .flags q) (show q < s.m.statesCount from hT.states ▸ hq)]
    exact hT.flags q hq
  · intro q hq
    have hfr := hT.finals q hq
    have e := get_sameBlock h (c := .finalIndex q) (show q < s.m.statesCount from hT.states ▸ hq)
    have hb := hfr.bound
    refine ⟨by rw [e]; exact hb, ?_, ?_⟩
    · intro i hi
      rw [e, get_sameBlock h (c := .final (s.get P (.finalIndex q) + i)) (show _ < s.m.finalTableSize by omega)]
      exact hfr.entry i hi
    · rw [e, get_sameBlock h (c := .final (s.get P (.finalIndex q) + (T.acc q).length)) (show _ < s.m.finalTableSize by omega)]
      exact hfr.stop
  · intro hm q hq
    have hm2 : P.masks = 2 := hP.resolve_left hm
    rcases hT.masks hm q hq with ⟨m1, m2⟩ | m1 | ⟨a, b, ha, hb, m1, m2, m3⟩
    · exact .inl ⟨hmv q hq hm2 0 (by omega) _ m1, m2⟩
    · exact .inr (.inl (hmv q hq hm2 0 (by omega) _ m1))
    · exact .inr (.inr ⟨a, b, ha, hb, hmv q hq hm2 0 (by omega) _ m1, hmv q hq hm2 1 (by omega) _ m2, m3⟩)

/-- Two scanners with the same table recognise the same. -/
theorem recognizes_core {s' : Multi} {Ls : List (Language Nat)} (h : Core P s T) (h' : Core P s' T) (he : s'.regexpsCount = s.regexpsCount)
    (hR : Recognizes P s Ls) : Recognizes P s' Ls := by
  have ha : ∀ {s : Multi}, Core P s T → ∀ w, IsWord w → (s.scn P).after (s.scn P).initial w = s.indexToState P (T.after T.q0 w) := by
    intro s h w hw
    have hi : (s.scn P).initial = s.indexToState P T.q0 := h.initial
    rw [hi, h.after_eq h.wf.q0_lt hw]
  have hl : ∀ w, IsWord w → T.after T.q0 w < T.n := fun w hw => h.wf.after_lt h.wf.q0_lt hw
  refine ⟨he.trans hR.count, fun w hw => ?_, fun w hw => ?_, fun w hw => ?_⟩
  · rw [← hR.accepted w hw, ha h' w hw, ha h w hw, h'.acceptedRegexps_eq (hl w hw), h.acceptedRegexps_eq (hl w hw)]
  · rw [← hR.final w hw, ha h' w hw, ha h w hw, h'.final_eq (hl w hw), h.final_eq (hl w hw)]
  · rw [← hR.dead w hw, ha h' w hw, ha h w hw, h'.dead_eq (hl w hw), h.dead_eq (hl w hw)]

theorem fits_at {base base' : Nat} {l : Locals} (h : Fits P base l) (ha : base' % 8 = 0) (hs : base' + bufSize P l ≤ 2 ^ 64) : Fits P base' l :=
  ⟨ha, hs, h.disp⟩

theorem bufSize_pos (P : Policy) (l : Locals) : 0 < bufSize P l := by
  have hM : MaxChar = 264 := rfl
  unfold bufSize Scn.alignUp
  omega

theorem bufSize_deepCopy (P : Policy) (a : Nat) (s : Multi) : bufSize P (deepCopy P P a s).m = bufSize P s.m := by
  obtain ⟨e1, e2, e3, -⟩ := deepCopy_m P P a s
  unfold bufSize rowSize
  rw [e1, e2, e3]

theorem fits_deepCopy {a base : Nat} (h : Fits P base s.m) (ha : a % 8 = 0) (hs : a + bufSize P s.m ≤ 2 ^ 64) : Fits P a (deepCopy P P a s).m := by
  obtain ⟨e1, e2, e3, -⟩ := deepCopy_m P P a s
  refine ⟨ha, by rw [bufSize_deepCopy]; exact hs, fun hr => ?_⟩
  have := h.disp hr
  unfold rowBytes rowSize at this ⊢
  rw [e1, e2]
  exact this

/-- What the constructors give. -/
def MultiBuilt (P : Policy) (s : Multi) : Prop := s.empty = false ∧ Fits P s.base s.m

theorem built_deepCopy {a : Nat} (hf : Fits P a (deepCopy P P a s).m) : MultiBuilt P (deepCopy P P a s) := by
  obtain ⟨-, -, -, e1, e2, -⟩ := deepCopy_m P P a s
  refine ⟨e2, ?_⟩
  rw [e1]
  exact hf

theorem multiKind_copyTo (P : Policy) (null : Multi) : (multiKind P null).copyTo = fun a s => deepCopy P P a s := by
  simp only [multiKind]

theorem multi_laws (hP : Props.Typedef P) (null : Multi) :
    Laws (multiKind P null) (MultiBuilt P) fun s (Ls : List (Language Nat)) => Valid P s ∧ Recognizes P s Ls where
  mem_withMem _ _ := rfl
  withMem_withMem _ _ _ := rfl
  withMem_mem _ := rfl
  base_withMem _ _ := rfl
  size_withMem _ _ := rfl
  room_withMem _ _ := rfl
  built_withMem _ _ h := h
  congr m x val hx hm := by
    obtain ⟨⟨T, hT⟩, hR⟩ := hx
    have hr := repr_sameBlock hP.real (m := m) hm hT
    exact ⟨⟨T, hr⟩, recognizes_core hT.toCore hr.toCore rfl hR⟩
  copy_base a x _ := (deepCopy_m P P a x).2.2.2.1
  copy_size a x _ := bufSize_deepCopy P a x
  copy_room a x _ := congrArg (· + 8) (bufSize_deepCopy P a x)
  room_size x _ := Nat.le_add_right _ _
  size_pos x _ _ := bufSize_pos P x.m
  copy_means a x val hb hx ha _ hs := by
    rw [show (multiKind P null).room x = bufSize P x.m + 8 from rfl] at hs
    have hf := fits_deepCopy hb.2 ha (by omega)
    obtain ⟨h1, h2⟩ := Props.C37_copy_recognizes_the_same hP hP rfl hx.1 hb.1 hx.2 hf
    have h3 := built_deepCopy hf
    rw [multiKind_copyTo]
    exact ⟨h3, h2, h1⟩

end

/-! ### SimpleScanner -/

section
open Simple
variable {s : Simple} {T : Tbl} {m : Mem}

theorem simple_repr_sameBlock (hm : ∀ i, s.base ≤ i → i < s.base + Simple.bufSize s.statesCount → m i = s.mem i) (hT : Simple.Repr s T) :
    Simple.Repr { s with mem := m } T := by
  have hM : rowSize = 265 := rfl
  have hread : ∀ i, i < rowSize * s.statesCount → Scn.readLE m (word s.base i) 8 = Scn.readLE s.mem (word s.base i) 8 := by
    intro i hi
    unfold word
    apply readLE_shift_base
    intro j hj
    exact hm _ (by omega) (by unfold Simple.bufSize; omega)
  refine ⟨hT.wf, hT.align, hT.space, hT.states, hT.initial, ?_, ?_⟩
  · intro q hq c hc
    have hr := row_lt hq
    have := hc.1
    refine Eq.trans (hread _ (by rw [hT.states, hM]; omega)) (hT.jump q hq c hc)
  · intro q hq
    have hr := row_lt hq
    have := hT.tag q hq
    rw [← hread _ (by rw [hT.states, hM]; omega)] at this
    exact this

theorem simple_laws (null : Simple) :
    Laws (simpleKind null) (fun s => s.empty = false) fun s (L : Language Nat) => (∃ T, Simple.Repr s T) ∧ Simple.Recognizes s L where
  mem_withMem _ _ := rfl
  withMem_withMem _ _ _ := rfl
  withMem_mem _ := rfl
  base_withMem _ _ := rfl
  size_withMem _ _ := rfl
  room_withMem _ _ := rfl
  built_withMem _ _ h := h
  congr m x val hx hm := by
    obtain ⟨⟨T, hT⟩, hR⟩ := hx
    have hr := simple_repr_sameBlock (m := m) hm hT
    exact ⟨⟨T, hr⟩, Props.simple_same hT hr hR⟩
  copy_base a x _ := by show (Simple.copyCtor true a x).base = a; unfold Simple.copyCtor; rw [if_pos rfl, withBlock_base]
  copy_size a x _ := by
    show Simple.bufSize (Simple.copyCtor true a x).statesCount = Simple.bufSize x.statesCount
    unfold Simple.copyCtor; rw [if_pos rfl, withBlock_states]
  copy_room a x _ := by
    show Simple.bufSize (Simple.copyCtor true a x).statesCount = Simple.bufSize x.statesCount
    unfold Simple.copyCtor; rw [if_pos rfl, withBlock_states]
  room_size x _ := Nat.le_refl _
  size_pos x val h := by
    obtain ⟨⟨T, hT⟩, -⟩ := h
    have h1 := hT.wf.q0_lt
    have hM : rowSize = 265 := rfl
    show 0 < Simple.bufSize x.statesCount
    rw [hT.states]
    have hp : 0 < rowSize * T.n := Nat.mul_pos (by decide) (by omega)
    unfold Simple.bufSize
    omega
  copy_means a x val hb hx ha h0 hs := by
    obtain ⟨⟨T, hT⟩, hR⟩ := hx
    have hs : a + Simple.bufSize x.statesCount ≤ 2 ^ 64 := hs
    have hi := copy_image hT hs
    have hbase : (Simple.copyCtor true a x).base = a := by unfold Simple.copyCtor; rw [if_pos rfl, withBlock_base]
    have hT' := hi.repr hT (by rw [hbase]; exact ha) (by rw [hbase, hi.states]; exact hs)
    exact ⟨hi.empty, ⟨T, hT'⟩, Props.simple_same hT hT' hR⟩

end

/-! ### LoadedScanner -/

section
open Loaded Count
variable {s s' : Loaded} {T : ATbl} {m : Mem}

theorem Loaded.Alike.trans {a b c : Loaded} (h : Alike a b) (h' : Alike b c) : Alike a c :=
  ⟨h'.states.trans h.states, h'.letters.trans h.letters, h'.regexps.trans h.regexps, fun w hw => (h'.actions w hw).trans (h.actions w hw),
    fun w hw => (h'.index w hw).trans (h.index w hw), fun w hw => (h'.tags w hw).trans (h.tags w hw)⟩

theorem repr_alike (h : Repr s T) (h' : Repr s' T) (e1 : s'.statesCount = s.statesCount) (e2 : s'.lettersCount = s.lettersCount)
    (e3 : s'.regexpsCount = s.regexpsCount) : Alike s s' := by
  have ha : ∀ w, IsWord w → s.stateIdx (s.stateAfter w) = T.after T.q0 w ∧ s'.stateIdx (s'.stateAfter w) = T.after T.q0 w ∧ T.after T.q0 w < T.n := by
    intro w hw
    obtain ⟨-, k2, k3⟩ := h.along hw h.q0
    obtain ⟨-, j2, -⟩ := h'.along hw h'.q0
    unfold stateAfter
    rw [h.initial, h'.initial, k2, j2, h.stateIdx k3, h'.stateIdx k3]
    exact ⟨rfl, rfl, k3⟩
  refine ⟨e1, e2, e3, fun w hw => ?_, fun w hw => ?_, fun w hw => ?_⟩
  · rw [h.initial, h'.initial, (h.along hw h.q0).1, (h'.along hw h'.q0).1]
  · rw [(ha w hw).1, (ha w hw).2.1]
  · obtain ⟨a1, a2, a3⟩ := ha w hw
    rw [a1, a2, h.tag _ a3, h'.tag _ a3]

/-- The three arrays follow each other. -/
def Laid (s : Loaded) : Prop := s.letters + MaxChar ≤ s.jumps ∧ s.jumps + 8 * (s.statesCount * s.lettersCount) ≤ s.tags

theorem loaded_repr_sameBlock (hl : Laid s) (hm : ∀ i, s.letters ≤ i → i < s.letters + (s.tags + s.statesCount - s.letters) → m i = s.mem i) (hT : Repr s T) :
    Repr { s with mem := m } T := by
  obtain ⟨l1, l2⟩ := hl
  have hM : MaxChar = 264 := rfl
  rw [hM] at l1
  have hst := hT.states
  rw [hst] at l2 hm
  have hnl : T.n * (s.lettersCount * 8) = 8 * (T.n * s.lettersCount) := by ring
  have hrd : ∀ p k, s.letters ≤ p → p + k ≤ s.tags + T.n → Scn.readLE m p k = Scn.readLE s.mem p k := by
    intro p k h1 h2
    apply readLE_shift_base
    intro i hi
    exact hm _ (by omega) (by omega)
  have hsp := hT.space
  rw [hnl] at hsp
  refine relocate_repr (s' := { s with mem := m }) hT hT.align hsp rfl rfl hT.initial ?_ ?_ ?_
  · intro c hc
    have hc := hc.1
    exact hrd (s.letters + c) 1 (by omega) (by omega)
  · intro d k hd
    exact hrd (s.jumps + d) k (by omega) (by omega)
  · intro q hq
    exact hrd (s.tags + q) 1 (by omega) (by omega)

/-- What the constructors give. -/
def LoadedBuilt (s : Loaded) : Prop := Owned s s.letters ∧ s.statesCount * s.lettersCount < 2 ^ 32

/-- What a variable means: it cannot be told from the scanner `x`. -/
def LoadedMeans (s x : Loaded) : Prop := (Laid s ∧ ∃ T, Repr s T) ∧ Alike x s ∧ s.reCount = x.reCount

theorem loaded_size (hb : LoadedBuilt s) : s.tags + s.statesCount - s.letters = Loaded.bufSize s.statesCount s.lettersCount := by
  have := hb.1.tags
  have hnl : s.statesCount * (s.lettersCount * 8) = 8 * (s.statesCount * s.lettersCount) := by ring
  unfold Loaded.bufSize
  rw [this, hnl]
  omega

theorem loadedKind_copyTo (null : Loaded) : (loadedKind null).copyTo = fun a s => Loaded.copyCtor true a s := by
  simp only [loadedKind]

theorem loaded_copy_size {a : Nat} (hb : LoadedBuilt s) : (Loaded.copyCtor true a s).tags + (Loaded.copyCtor true a s).statesCount - (Loaded.copyCtor true a s).letters =
    s.tags + s.statesCount - s.letters := by
  have hO : Owned (Loaded.copyCtor true a s) a := owned_copy' hb.2
  obtain ⟨c1, c2⟩ := copy_counts s a
  generalize Loaded.copyCtor true a s = z at *
  have h1 := loaded_size (s := z) ⟨by rw [hO.letters]; exact hO, by rw [c1, c2]; exact hb.2⟩
  rw [h1, c1, c2, loaded_size hb]

theorem loaded_copy_means {a : Nat} {x val : Loaded} (hb : LoadedBuilt x) (hx : LoadedMeans x val) (ha : a % 8 = 0)
    (hs : a + Loaded.bufSize x.statesCount x.lettersCount ≤ 2 ^ 64) :
    LoadedBuilt (Loaded.copyCtor true a x) ∧ LoadedMeans (Loaded.copyCtor true a x) val := by
  obtain ⟨⟨hl, T, hT⟩, hal, hc⟩ := hx
  obtain ⟨c1, c2⟩ := copyCtor_repr (own := true) (base := x.letters) hT (fun _ => hb.1) ha hs
  have hO : Owned (Loaded.copyCtor true a x) a := owned_copy hT
  have e3 : (Loaded.copyCtor true a x).regexpsCount = x.regexpsCount := by
    unfold Loaded.copyCtor
    rw [if_pos rfl]
    exact (markup_fields _ _ _ _ _ _).2.2.1
  obtain ⟨d1, d2⟩ := copy_counts x a
  generalize Loaded.copyCtor true a x = z at *
  refine ⟨⟨by rw [hO.letters]; exact hO, by rw [d1, d2]; exact hb.2⟩, ⟨⟨?_, ?_⟩, T, c1⟩, Loaded.Alike.trans hal (repr_alike hT c1 d1 d2 e3), c2.trans hc⟩
  · rw [hO.letters, hO.jumps]
  · rw [hO.jumps, hO.tags]

theorem loaded_laws (null : Loaded) : Laws (loadedKind null) LoadedBuilt LoadedMeans where
  mem_withMem _ _ := rfl
  withMem_withMem _ _ _ := rfl
  withMem_mem _ := rfl
  base_withMem _ _ := rfl
  size_withMem _ _ := rfl
  room_withMem _ _ := rfl
  built_withMem _ _ h := ⟨⟨h.1.letters, h.1.jumps, h.1.tags, h.1.nonempty⟩, h.2⟩
  congr m x val hx hm := by
    obtain ⟨⟨hl, T, hT⟩, ha, hc⟩ := hx
    have hr := loaded_repr_sameBlock (m := m) hl hm hT
    exact ⟨⟨hl, T, hr⟩, Loaded.Alike.trans ha (repr_alike hT hr rfl rfl rfl), hc⟩
  copy_base a x _ := by
    rw [loadedKind_copyTo]
    show (Loaded.copyCtor true a x).letters = a
    unfold Loaded.copyCtor
    rw [if_pos rfl]
    exact (markup_fields _ _ _ _ _ _).2.2.2.2.1
  copy_size a x hb := by
    rw [loadedKind_copyTo]
    exact loaded_copy_size hb
  copy_room a x _ := by
    rw [loadedKind_copyTo]
    show Loaded.bufSize (Loaded.copyCtor true a x).statesCount (Loaded.copyCtor true a x).lettersCount = Loaded.bufSize x.statesCount x.lettersCount
    rw [(copy_counts x a).1, (copy_counts x a).2]
  room_size x hb := Nat.le_of_eq (loaded_size hb)
  size_pos x val h := by
    obtain ⟨⟨⟨l1, l2⟩, T, hT⟩, -⟩ := h
    have hM : MaxChar = 264 := rfl
    show 0 < x.tags + x.statesCount - x.letters
    rw [hM] at l1
    omega
  copy_means a x val hb hx ha h0 hs := by
    rw [loadedKind_copyTo]
    exact loaded_copy_means hb hx ha hs

end

end Life
end Pire
