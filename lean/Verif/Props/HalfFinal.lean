import Verif.Proofs.HalfFinalScanner
import Verif.Props.Glue
import Verif.Props.Approx

/-!
# C49: half-final scanners count

`Next` followed by `TakeAction` (`Step`) counts, for every glued regexp separately, the prefixes of the text after which the regexp's
automaton is in a final state. What that number means depends on how the automaton was prepared: `HalfFinalScanner(Fsm)` calls
`HalfFinalFsm::MakeScanner`, `HalfFinalScanner(HalfFinalFsm)` takes what `MakeNonGreedyCounter` left.
-/

namespace Pire.Props
open Pire Pire.Spec Multi HalfFinal

section
variable {P : Policy} {s : Multi} {Ls : List (Language Nat)}

/-! ### Running -/

/-- The counter of the `i`-th regexp is the number of prefixes of the text, the empty one included, that its language contains; it is kept
in a `size_t`. -/
theorem C49_counts (h : Recognizes P s Ls) {i : Nat} {L : Language Nat} (hL : Ls[i]? = some L) {w : List Nat} (hw : IsWord w) :
    ((HalfFinal.scn P s).after (HalfFinal.scn P s).initial w).result i = positions L w % 2 ^ 64 := by
  show ((HalfFinal.scn P s).after (HalfFinal.scn P s).initial w).matched i = _
  rw [(run_spec w).2, recognizes_total h hL hw]

/-- It does not overflow on texts shorter than 2⁶⁴ - 1. -/
theorem C49_counts_exact (h : Recognizes P s Ls) {i : Nat} {L : Language Nat} (hL : Ls[i]? = some L) {w : List Nat} (hw : IsWord w)
    (hlen : w.length + 1 < 2 ^ 64) : ((HalfFinal.scn P s).after (HalfFinal.scn P s).initial w).result i = positions L w := by
  rw [C49_counts h hL hw, Nat.mod_eq_of_lt (lt_of_le_of_lt (positions_le L w) hlen)]

/-- `AcceptedRegexps` lists the regexps that have matched some prefix of the text. -/
theorem C49_accepted (h : Recognizes P s Ls) (he : s.empty = false) {w : List Nat} (hw : IsWord w) (hlen : w.length + 1 < 2 ^ 64) (i : Nat) :
    i ∈ accepted s ((HalfFinal.scn P s).after (HalfFinal.scn P s).initial w) ↔ ∃ L, Ls[i]? = some L ∧ ∃ u, u <+: w ∧ u ∈ L := by
  classical
  have hc : s.m.regexpsCount = Ls.length := by
    have := h.count
    unfold Multi.regexpsCount at this
    rw [he] at this
    exact this
  unfold accepted
  rw [List.mem_filter, List.mem_range, hc, decide_eq_true_eq]
  constructor
  · rintro ⟨hi, hne⟩
    refine ⟨Ls[i], List.getElem?_eq_getElem hi, ?_⟩
    have e : ((HalfFinal.scn P s).after (HalfFinal.scn P s).initial w).matched i = _ := C49_counts_exact h (List.getElem?_eq_getElem hi) hw hlen
    rw [e] at hne
    by_contra hx
    exact hne (positions_eq_zero fun u hu hm => hx ⟨u, hu, hm⟩)
  · rintro ⟨L, hL, u, hu, hm⟩
    refine ⟨(List.getElem?_eq_some_iff.1 hL).1, ?_⟩
    have e : ((HalfFinal.scn P s).after (HalfFinal.scn P s).initial w).matched i = _ := C49_counts_exact h hL hw hlen
    rw [e]
    unfold positions
    intro h0
    rw [List.length_eq_zero_iff, List.filter_eq_nil_iff] at h0
    exact h0 u ((List.mem_inits _ _).2 hu) (by rw [decide_eq_true_eq]; exact hm)

/-- `AcceptedRegexps` lists them in increasing order. -/
theorem C49_accepted_sorted (s : Multi) (st : State) : (accepted s st).Pairwise (· < ·) := List.pairwise_lt_range.filter _

/-- `Final` speaks about the text read so far, not about its prefixes; `Dead` promises that no counter will ever change. -/
theorem C49_final (h : Recognizes P s Ls) {w : List Nat} (hw : IsWord w) :
    (HalfFinal.scn P s).final ((HalfFinal.scn P s).after (HalfFinal.scn P s).initial w) = true ↔ ∃ L ∈ Ls, w ∈ L := by
  show (s.scn P).final ((HalfFinal.scn P s).after (HalfFinal.scn P s).initial w).st = true ↔ _
  rw [(run_spec w).1]
  exact h.final w hw

theorem C49_dead_freezes (h : Recognizes P s Ls) {w v : List Nat} (hwv : IsWord (w ++ v))
    (hd : (HalfFinal.scn P s).dead ((HalfFinal.scn P s).after (HalfFinal.scn P s).initial w) = true) {i : Nat} (hi : i < Ls.length) :
    ((HalfFinal.scn P s).after (HalfFinal.scn P s).initial (w ++ v)).result i = ((HalfFinal.scn P s).after (HalfFinal.scn P s).initial w).result i := by
  classical
  have hw : IsWord w := fun c hc => hwv c (List.mem_append_left _ hc)
  have hL := List.getElem?_eq_getElem hi
  rw [C49_counts h hL hwv, C49_counts h hL hw]
  have hd' : (s.scn P).dead ((s.scn P).after (s.scn P).initial w) = true := by
    rw [← (run_spec w).1]; exact hd
  rw [h.dead w hw] at hd'
  congr 1
  induction v using List.reverseRecOn with
  | nil => rw [List.append_nil]
  | append_singleton v c ih =>
    rw [← List.append_assoc] at hwv ⊢
    rw [positions_snoc, ih fun x hx => hwv x (List.mem_append_left _ hx), if_neg, Nat.add_zero]
    rw [List.append_assoc]
    refine fun hm => hd' (v ++ [c]) (fun x hx => hwv x ?_) ⟨_, List.getElem_mem hi, hm⟩
    rw [List.append_assoc]
    exact List.mem_append_right _ hx

/-- `Run` over a text in memory does the same as letter by letter. -/
theorem C49_run (h : Recognizes P s Ls) (mem : Mem) {b e : Nat} (hbe : b ≤ e) {i : Nat} {L : Language Nat} (hL : Ls[i]? = some L)
    (hlen : e - b + 1 < 2 ^ 64) : ((HalfFinal.scn P s).run mem b e (HalfFinal.scn P s).initial).result i = positions L (Scn.bytesAt mem b (e - b)) := by
  rw [C28_run_is_stepwise _ _ hbe]
  refine C49_counts_exact h hL ?_ ?_
  · exact bytesAt_word mem b _
  · rw [Scn.bytesAt_length]; exact hlen

end

/-! ### Glueing -/

section
variable {P : Policy} {a b nul : Multi} {As Bs : List (Language Nat)} {ownA ownB : Bool} {base base' maxSize : Nat}

/-- Glueing two counting scanners, when it does not fail, keeps the counters of the first and appends those of the second. -/
theorem C49_glue (hP : Typedef P) (hva : Valid P a) (hvb : Valid P b) (ha : Recognizes P a As) (hb : Recognizes P b Bs)
    (hroom : GlueRoom P a b ownA ownB As Bs base base' maxSize)
    (hsmall : ¬ (a.empty = false ∧ b.empty = false ∧ TooManyPairs P a b (glueLimit maxSize))) :
    ∃ s, glue P nul ownA ownB base base' a b maxSize = .ok s ∧ ∀ w, IsWord w →
      (∀ i < As.length, ((HalfFinal.scn P s).after (HalfFinal.scn P s).initial w).result i =
        ((HalfFinal.scn P a).after (HalfFinal.scn P a).initial w).result i) ∧
      ∀ j < Bs.length, ((HalfFinal.scn P s).after (HalfFinal.scn P s).initial w).result (As.length + j) =
        ((HalfFinal.scn P b).after (HalfFinal.scn P b).initial w).result j := by
  obtain ⟨s, h1, h2, -⟩ := C26_glue (nul := nul) hP hva hvb ha hb hroom
  obtain ⟨-, hr⟩ := h2 hsmall
  refine ⟨s, h1, fun w hw => ⟨fun i hi => ?_, fun j hj => ?_⟩⟩
  · rw [C49_counts ha (List.getElem?_eq_getElem hi) hw, C49_counts hr (L := As[i]) _ hw]
    rw [List.getElem?_append_left hi]; exact List.getElem?_eq_getElem hi
  · rw [C49_counts hb (List.getElem?_eq_getElem hj) hw, C49_counts hr (L := Bs[j]) _ hw]
    rw [List.getElem?_append_right (by omega), Nat.add_sub_cancel_left]; exact List.getElem?_eq_getElem hj

end

/-! ### `HalfFinalScanner(Fsm)` -/

section
variable {P : Policy} {base : Nat} {f : Fsm} {s : Multi}

/-- What the user has to provide: an automaton that is not determined, or a determined one without unreachable states. -/
def CountInput (f : Fsm) : Prop := f.Good ∧ f.TagsIn (· = 0) ∧ (f.determined = true → Reachable f ∧ f.size ≤ 800000)

/-- If every continuation of a matched text is matched too, the scanner counts the prefixes of the text that end with a word of the
language with no shorter beginning in the language. -/
theorem C49_constructor_extensible (hP : Typedef P) (hf : CountInput f) (hs : ofFsm P base f = some s) (hal : base % 8 = 0)
    (hsp : base + bufSize P s.m ≤ 2 ^ 64) (hL : Extensible f.Lang) {w : List Nat} (hw : IsWord w) :
    ((HalfFinal.scn P s).after (HalfFinal.scn P s).initial w).result 0 = positions (allWords * firsts f.Lang) w % 2 ^ 64 := by
  have h0 : f.withDistance 0 = f := rfl
  obtain ⟨-, -, hr⟩ := ofFsm_spec (d := 0) hP.real (by rw [h0]; exact hf.1) (by rw [h0]; exact hf.2.1) (by rw [h0]; exact fun h => (hf.2.2 h).1) hs hal hsp
    (by rw [h0]; exact fun h => (hf.2.2 h).2)
  rw [h0] at hr
  unfold halfLang at hr
  rw [if_pos hL] at hr
  exact C49_counts hr rfl hw

/-- In particular an automaton after `Surround` is such; an occurrence is counted unless another one ends inside it. -/
theorem C49_surround_extensible {K : Language Nat} : Extensible (allWords * K * allWords) ∧ firsts (allWords * K * allWords) = firsts (allWords * K) := by
  constructor
  · rintro u v ⟨x, hx, y, hy, rfl⟩ hv
    refine ⟨x, hx, y ++ v, fun c hc => ?_, by simp⟩
    rcases List.mem_append.1 hc with h | h
    · exact hy c h
    · exact hv c h
  · have nil : [] ∈ allWords := fun c hc => by cases hc
    ext w
    constructor
    · rintro ⟨⟨x, hx, y, hy, rfl⟩, hmin⟩
      have : x = x ++ y := hmin x ⟨y, rfl⟩ ⟨x, hx, [], nil, by simp⟩
      simp only at hmin ⊢
      rw [← this] at hmin ⊢
      exact ⟨hx, fun u hu hm => hmin u hu ⟨u, hm, [], nil, by simp⟩⟩
    · rintro ⟨hw, hmin⟩
      refine ⟨⟨w, hw, [], nil, by simp⟩, ?_⟩
      rintro u hu ⟨x, hx, y, -, rfl⟩
      have e := hmin x (List.IsPrefix.trans ⟨y, rfl⟩ hu) hx
      simp only at hu ⊢
      have : (x ++ y).length ≤ w.length := hu.length_le
      rw [← e, List.length_append] at this
      have : y = [] := List.eq_nil_of_length_eq_zero (by omega)
      rw [this, List.append_nil]; exact e

/-- Otherwise the counter stays zero until the end mark, and the end mark makes it one if the whole text with the mark is matched. -/
theorem C49_constructor_whole (hP : Typedef P) (hf : CountInput f) (hs : ofFsm P base f = some s) (hal : base % 8 = 0)
    (hsp : base + bufSize P s.m ≤ 2 ^ 64) (hL : ¬ Extensible f.Lang) {w : List Nat} (hw : IsWord w) (hm : EndMark ∉ w) :
    ((HalfFinal.scn P s).after (HalfFinal.scn P s).initial w).result 0 = 0 ∧
    (((HalfFinal.scn P s).after (HalfFinal.scn P s).initial (w ++ [EndMark])).result 0 = 1 ↔ w ++ [EndMark] ∈ f.Lang) ∧
    (((HalfFinal.scn P s).after (HalfFinal.scn P s).initial (w ++ [EndMark])).result 0 = 0 ↔ w ++ [EndMark] ∉ f.Lang) := by
  classical
  have h0 : f.withDistance 0 = f := rfl
  obtain ⟨-, -, hr⟩ := ofFsm_spec (d := 0) hP.real (by rw [h0]; exact hf.1) (by rw [h0]; exact hf.2.1) (by rw [h0]; exact fun h => (hf.2.2 h).1) hs hal hsp
    (by rw [h0]; exact fun h => (hf.2.2 h).2)
  rw [h0] at hr
  unfold halfLang at hr
  rw [if_neg hL] at hr
  have hE : EndMark = 259 := rfl
  rw [hE] at hm ⊢
  have hz : positions (marked f.Lang) w = 0 := positions_eq_zero fun u hu => by
    rintro ⟨-, x, y, rfl, -⟩
    exact hm (hu.subset (by simp))
  have hwe : IsWord (w ++ [259]) := fun c hc => by
    rcases List.mem_append.1 hc with h | h
    · exact hw c h
    · rw [List.mem_singleton.1 h]; decide
  have hiff : w ++ [259] ∈ marked f.Lang ↔ w ++ [259] ∈ f.Lang := by
    constructor
    · rintro ⟨-, x, y, e, hx⟩
      rcases List.eq_nil_or_concat y with rfl | ⟨y', c, rfl⟩
      · rw [List.append_nil] at e; rw [e]; exact hx
      · exfalso
        rw [List.concat_eq_append, ← List.append_assoc] at e
        have := (List.append_inj' e rfl).1
        exact hm (this ▸ by simp)
    · intro h; exact ⟨hwe, w, [], by simp, h⟩
  rw [C49_counts hr rfl hw, C49_counts hr rfl hwe, positions_snoc, hz]
  by_cases h : w ++ [259] ∈ f.Lang
  · rw [if_pos (hiff.2 h)]; simp [h]
  · rw [if_neg fun h' => h (hiff.1 h')]; simp [h]

/-- With a distance the automaton is the one of `CreateApproxFsm`. -/
theorem C49_constructor_distance (hP : Typedef P) {d : Nat} (h : f.Good) (ht : f.TagsIn (· = 0)) (hns : f.sparsed = false) (hd : f.determined = false)
    (hs : ofFsm P base f d = some s) (hal : base % 8 = 0) (hsp : base + bufSize P s.m ≤ 2 ^ 64)
    (hL : Extensible (f.createApprox d).Lang) {w : List Nat} (hw : IsWord w) :
    ((HalfFinal.scn P s).after (HalfFinal.scn P s).initial w).result 0 = positions (allWords * firsts (f.createApprox d).Lang) w % 2 ^ 64 := by
  obtain ⟨ts, ha⟩ := Fsm.createApprox_spec h.wf h.coh (Fsm.direct_unsparsed hns) d
  have hdd : (f.withDistance d).determined = false := by rw [withDistance_eq]; exact ha.determined.trans hd
  obtain ⟨-, -, hr⟩ := ofFsm_spec (d := d) hP.real (by rw [withDistance_eq]; exact approx_good h hns hd d) (by rw [withDistance_eq]; exact ha.tags _ ht)
    (fun h => by rw [hdd] at h; cases h) hs hal hsp (fun h => by rw [hdd] at h; cases h)
  rw [withDistance_eq] at hr
  unfold halfLang at hr
  rw [if_pos hL] at hr
  exact C49_counts hr rfl hw

end

/-! ### `MakeNonGreedyCounter` -/

section
variable {P : Policy} {base : Nat} {f g : Fsm}

theorem counter_fits {b sim : Bool} (hP : P.Real) (h : f.Good) (ht : f.TagsIn (· = 0)) (hg : makeNonGreedyCounter b sim f = some g)
    (hb : base ≤ 2 ^ 63) : base + bufSize P (ofHalfFinal P base g).m ≤ 2 ^ 64 := by
  obtain ⟨d, t, hsz, -⟩ := makeNonGreedyCounter_spec h ht hg
  have hcard : g.finals.card ≤ g.size := by
    have : g.finals ⊆ Finset.range g.size := fun q hq => Finset.mem_range.2 (d.wf.fin_lt q hq)
    simpa using Finset.card_le_card this
  have hl := AllLetters.size_le d.wf.let_wf d.all
  obtain ⟨e1, e2, e3⟩ := buildScanner_m P base (totalCount g) g
  have hm : (ofHalfFinal P base g).m = (buildScanner P g (init P base g.size g.letters (totalCount g) g.initial 1)).m := by
    unfold ofHalfFinal
    have hrest : ∀ s : Multi, (buildFinals P (getCount g) s).rest = s.rest := by
      intro s
      unfold buildFinals
      rw [foldl_rest_fst]
      intro r q
      have hp : ∀ (r : Multi × Nat) v, (put P r v).1.rest = r.1.rest := fun _ _ => rfl
      rw [hp, foldl_rest_fst (fun r v => hp r v)]
      rfl
    exact congrArg Prod.fst (hrest _)
  rw [hm]
  have c1 : (buildScanner P g (init P base g.size g.letters (totalCount g) g.initial 1)).m.statesCount ≤ 200001 := by
    rw [e1]; show g.size % 2 ^ 32 ≤ _; rw [Nat.mod_eq_of_lt (by omega)]; exact hsz
  have c2 : (buildScanner P g (init P base g.size g.letters (totalCount g) g.initial 1)).m.lettersCount ≤ 264 := by
    rw [e2]; show g.letters.size % 2 ^ 32 ≤ _; rw [Nat.mod_eq_of_lt (by omega)]; exact hl
  have c3 : (buildScanner P g (init P base g.size g.letters (totalCount g) g.initial 1)).m.finalTableSize ≤ 400002 := by
    rw [e3, totalCount_zero d.wf t]; show (g.finals.card + g.size) % 2 ^ 32 ≤ _; rw [Nat.mod_eq_of_lt (by omega)]; omega
  generalize (buildScanner P g (init P base g.size g.letters (totalCount g) g.initial 1)).m = m at *
  have hr := Nat.mul_le_mul (rowBytes_le hP c2) c1
  have e : rowSize P m * m.statesCount * P.reloc.tsz = rowBytes P m * m.statesCount := by
    unfold rowBytes; ring
  have hM : MaxChar = 264 := rfl
  unfold bufSize Scn.alignUp
  rw [e]
  omega

theorem counter_recognizes {b sim : Bool} (hP : Typedef P) (h : f.Good) (ht : f.TagsIn (· = 0)) (hg : makeNonGreedyCounter b sim f = some g)
    (hal : base % 8 = 0) (hb : base ≤ 2 ^ 63) : Valid P (ofHalfFinal P base g) ∧ (ofHalfFinal P base g).empty = false ∧
      Recognizes P (ofHalfFinal P base g) [counterLang b sim f.Lang] := by
  obtain ⟨d, t, hsz, hl⟩ := makeNonGreedyCounter_spec h ht hg
  rw [← hl]
  exact ofHalfFinal_spec hP.real d t hal (counter_fits hP.real h ht hg hb) (by omega)

/-- `MakeNonGreedyCounter(true, false)`: the number of places in the text where an occurrence ends, overlapping or not. -/
theorem C49_all_ends (hP : Typedef P) (h : f.Good) (ht : f.TagsIn (· = 0)) (hg : makeNonGreedyCounter true false f = some g)
    (hal : base % 8 = 0) (hb : base ≤ 2 ^ 63) {w : List Nat} (hw : IsWord w) (hlen : w.length + 1 < 2 ^ 64) :
    ((HalfFinal.scn P (ofHalfFinal P base g)).after (HalfFinal.scn P (ofHalfFinal P base g)).initial w).result 0 =
      positions (ends f.Lang) w := by
  rw [C49_counts_exact (counter_recognizes hP h ht hg hal hb).2.2 rfl hw hlen]
  exact positions_congr fun u hu => mem_ends_iff (hw.of_prefix hu)

/-- `MakeNonGreedyCounter(false)`: the greatest number of occurrences in the text that do not overlap. -/
theorem C49_non_overlapping {sim : Bool} (hP : Typedef P) (h : f.Good) (ht : f.TagsIn (· = 0)) (hg : makeNonGreedyCounter false sim f = some g)
    (hal : base % 8 = 0) (hb : base ≤ 2 ^ 63) (hne : [] ∉ f.Lang) {w : List Nat} (hw : IsWord w) (hlen : w.length + 1 < 2 ^ 64) :
    IsGreatest {k | Occurrences f.Lang w k}
      (((HalfFinal.scn P (ofHalfFinal P base g)).after (HalfFinal.scn P (ofHalfFinal P base g)).initial w).result 0) := by
  rw [C49_counts_exact (counter_recognizes hP h ht hg hal hb).2.2 rfl hw hlen]
  have : counterLang false sim f.Lang = chain (allWords * f.Lang) := rfl
  rw [this, positions_chain hw]
  exact greedy_greatest hne w

/-- If the regexp matches the empty word, it counts one, whatever the text. -/
theorem C49_empty_match_counts_one {sim : Bool} (hP : Typedef P) (h : f.Good) (ht : f.TagsIn (· = 0)) (hg : makeNonGreedyCounter false sim f = some g)
    (hal : base % 8 = 0) (hb : base ≤ 2 ^ 63) (hne : [] ∈ f.Lang) {w : List Nat} (hw : IsWord w) (hlen : w.length + 1 < 2 ^ 64) :
    ((HalfFinal.scn P (ofHalfFinal P base g)).after (HalfFinal.scn P (ofHalfFinal P base g)).initial w).result 0 = 1 := by
  rw [C49_counts_exact (counter_recognizes hP h ht hg hal hb).2.2 rfl hw hlen]
  have : counterLang false sim f.Lang = chain (allWords * f.Lang) := rfl
  rw [this, positions_chain hw]
  exact positions_chain_nil hne w

/-- `MakeNonGreedyCounter(true, true)`: the number of places where a word ends that contains exactly one occurrence end, its own:
simplification does not count an occurrence inside which another one ends. -/
theorem C49_simplified (hP : Typedef P) (h : f.Good) (ht : f.TagsIn (· = 0)) (hg : makeNonGreedyCounter true true f = some g)
    (hal : base % 8 = 0) (hb : base ≤ 2 ^ 63) {w : List Nat} (hw : IsWord w) (hlen : w.length + 1 < 2 ^ 64) :
    ((HalfFinal.scn P (ofHalfFinal P base g)).after (HalfFinal.scn P (ofHalfFinal P base g)).initial w).result 0 =
      positions (allWords * firsts (allWords * f.Lang)) w := by
  rw [C49_counts_exact (counter_recognizes hP h ht hg hal hb).2.2 rfl hw hlen]
  rfl

/-- Simplification changes nothing if no occurrence ends strictly inside another one. -/
theorem C49_simplification_exact (hP : Typedef P) {g' : Fsm} (h : f.Good) (ht : f.TagsIn (· = 0)) (hg : makeNonGreedyCounter true true f = some g)
    (hg' : makeNonGreedyCounter true false f = some g') (hal : base % 8 = 0) (hb : base ≤ 2 ^ 63)
    (hin : ∀ l ∈ f.Lang, ∀ x k y, l = x ++ k ++ y → k ∈ f.Lang → y = []) {w : List Nat} (hw : IsWord w) (hlen : w.length + 1 < 2 ^ 64) :
    ((HalfFinal.scn P (ofHalfFinal P base g)).after (HalfFinal.scn P (ofHalfFinal P base g)).initial w).result 0 =
    ((HalfFinal.scn P (ofHalfFinal P base g')).after (HalfFinal.scn P (ofHalfFinal P base g')).initial w).result 0 := by
  rw [C49_simplified hP h ht hg hal hb hw hlen, C49_all_ends hP h ht hg' hal hb hw hlen]
  refine positions_congr fun u hu => ?_
  have huw := hw.of_prefix hu
  constructor
  · rintro ⟨x, hx, y, ⟨⟨a, ha, l, hl, rfl⟩, -⟩, rfl⟩
    exact ⟨x ++ a, l, hl, by simp⟩
  · rintro ⟨x, l, hl, rfl⟩
    refine ⟨x, fun c hc => huw c (List.mem_append_left _ hc), l, ⟨⟨[], (fun c hc => by cases hc), l, hl, rfl⟩, ?_⟩, rfl⟩
    rintro v ⟨y, rfl⟩ ⟨a, ha, k, hk, e⟩
    have e' : v = a ++ k := e.symm
    subst e'
    have := hin _ hl a k y rfl hk
    rw [this, List.append_nil]

end

/-! ### The hypotheses are met -/

/-- The canonical automaton is not larger than any automaton of its language. -/
theorem canonize_size_le {f g : Fsm} (h : f.Good) (hnd : f.determined = false) (hg : f.canonize 0 = some g) {σ : Type} [Fintype σ] (M : DFA Nat σ)
    (hM : ∀ w, IsWord w → (w ∈ M.accepts ↔ w ∈ f.Lang)) : g.size ≤ Fintype.card σ := by
  obtain ⟨d, -, l, hd⟩ := Fsm.canonize_spec h hg
  exact Fsm.Det.size_le d (Fsm.canonize_reach h hnd hg) hd M fun w hw => by rw [l]; exact hM w hw

/-- The automaton of `aa`. -/
def aaDfa : DFA Nat (Fin 4) where
  step q c := if c = 97 then (match q with | 0 => 1 | 1 => 2 | _ => 3) else 3
  start := 0
  accept := {2}

theorem aaDfa_dead (w : List Nat) : aaDfa.evalFrom 3 w = 3 := by
  induction w with
  | nil => rfl
  | cons c w ih =>
    rw [DFA.evalFrom_cons]
    have : aaDfa.step 3 c = 3 := by show (if c = 97 then _ else _) = _; split <;> rfl
    rw [this]; exact ih

theorem aaDfa_accepts (w : List Nat) : w ∈ aaDfa.accepts ↔ w = [97, 97] := by
  rw [DFA.mem_accepts]
  have hs : ∀ q c, aaDfa.step q c = if c = 97 then (match q with | 0 => 1 | 1 => 2 | _ => 3) else 3 := fun _ _ => rfl
  have h2 : ∀ q, q ∈ aaDfa.accept ↔ q = 2 := fun _ => Iff.rfl
  rw [h2]
  unfold DFA.eval
  show aaDfa.evalFrom 0 w = 2 ↔ _
  match w with
  | [] => simp
  | [c] => rw [DFA.evalFrom_cons, hs]; by_cases h : c = 97 <;> simp [h]
  | [c, d] =>
    rw [DFA.evalFrom_cons, DFA.evalFrom_cons, hs, hs]
    by_cases h : c = 97 <;> by_cases h' : d = 97 <;> simp [h, h']
  | c :: d :: e :: w =>
    have : aaDfa.step (aaDfa.step (aaDfa.step 0 c) d) e = 3 := by
      rw [hs 0 c]
      by_cases h : c = 97
      · rw [if_pos h, hs _ d]
        by_cases h' : d = 97
        · rw [if_pos h', hs]; split <;> rfl
        · rw [if_neg h', hs]; split <;> rfl
      · rw [if_neg h, hs _ d]
        by_cases h' : d = 97
        · rw [if_pos h', hs]; split <;> rfl
        · rw [if_neg h', hs]; split <;> rfl
    rw [DFA.evalFrom_cons, DFA.evalFrom_cons, DFA.evalFrom_cons, this, aaDfa_dead]
    simp

/-- The automaton of texts that end with `aa`. -/
def endsAaDfa : DFA Nat (Fin 3) where
  step q c := if c = 97 then (match q with | 0 => 1 | _ => 2) else 0
  start := 0
  accept := {2}

theorem endsAaDfa_accepts (w : List Nat) : w ∈ endsAaDfa.accepts ↔ ∃ x, w = x ++ [97, 97] := by
  rw [DFA.mem_accepts]
  have hs : ∀ q c, endsAaDfa.step q c = if c = 97 then (match q with | 0 => 1 | _ => 2) else 0 := fun _ _ => rfl
  have h2 : ∀ q, q ∈ endsAaDfa.accept ↔ q = 2 := fun _ => Iff.rfl
  rw [h2]
  have h1 : ∀ w, endsAaDfa.eval w ≠ 0 ↔ ∃ x, w = x ++ [97] := by
    intro w
    rcases List.eq_nil_or_concat w with rfl | ⟨v, c, rfl⟩
    · simp [DFA.eval_nil, endsAaDfa]
    · rw [List.concat_eq_append, DFA.eval_append_singleton, hs]
      by_cases h : c = 97
      · subst h
        rw [if_pos rfl]
        refine ⟨fun _ => ⟨v, rfl⟩, fun _ => ?_⟩
        split <;> decide
      · rw [if_neg h]
        refine ⟨fun h => absurd rfl h, ?_⟩
        rintro ⟨x, e⟩
        have := (List.append_inj' e rfl).2
        simp at this; exact absurd this h
  rcases List.eq_nil_or_concat w with rfl | ⟨v, c, rfl⟩
  · simp [DFA.eval_nil, endsAaDfa]
  · rw [List.concat_eq_append, DFA.eval_append_singleton, hs]
    by_cases h : c = 97
    · subst h
      rw [if_pos rfl]
      constructor
      · intro h
        have : endsAaDfa.eval v ≠ 0 := by intro h0; rw [h0] at h; exact absurd h (by decide)
        obtain ⟨x, rfl⟩ := (h1 v).1 this
        exact ⟨x, by simp⟩
      · rintro ⟨x, e⟩
        have e' : v ++ [97] = (x ++ [97]) ++ [97] := by rw [e]; simp
        have := (h1 v).2 ⟨x, (List.append_inj' e' rfl).1⟩
        generalize endsAaDfa.eval v = q at this
        match q with
        | 0 => exact absurd rfl this
        | 1 => rfl
        | 2 => rfl
    · rw [if_neg h]
      refine ⟨fun h => absurd h (by decide), ?_⟩
      rintro ⟨x, e⟩
      have e' : v ++ [c] = (x ++ [97]) ++ [97] := by rw [e]; simp
      have := (List.append_inj' e' rfl).2
      simp at this; exact absurd this h

/-- The regexp `aa`. -/
def aaExpr : Expr := .lit [97, 97]

theorem aa_counters : ∃ f, build aaExpr = some f ∧ f.Good ∧ f.TagsIn (· = 0) ∧ f.determined = false ∧ f.Lang = ({[97, 97]} : Set (List Nat)) ∧
    ∀ b sim, ∃ g, makeNonGreedyCounter b sim f = some g := by
  have ok : aaExpr.Ok := show IsWord [97, 97] by unfold IsWord; decide
  have hf : build aaExpr = some (Fsm.init.appendStr [97, 97]) := rfl
  obtain ⟨hg, hl, -⟩ := build_spec aaExpr ok _ hf
  have hor : ∀ a b : Nat, a = 0 → b = 0 → a ||| b = 0 := fun _ _ a b => by rw [a, b]; rfl
  have ht := build_tagsIn (· = 0) hor aaExpr _ hf
  have hnd : (Fsm.init.appendStr [97, 97]).determined = false := by simp [Fsm.appendStr, Fsm.init, Fsm.appendChar]
  have hsz : (Fsm.init.appendStr [97, 97]).size ≤ 17 := by decide +kernel
  have hl' : (Fsm.init.appendStr [97, 97]).Lang = ({[97, 97]} : Set (List Nat)) := hl
  refine ⟨_, hf, hg, ht, hnd, hl', fun b sim => ?_⟩
  generalize Fsm.init.appendStr [97, 97] = f at *
  unfold makeNonGreedyCounter
  obtain ⟨f1, hf1⟩ := canonize_small hg hsz
  rw [hf1, Option.bind_some]
  have s1 : f1.size ≤ 4 := canonize_size_le hg hnd hf1 aaDfa fun w _ => by rw [aaDfa_accepts, hl']; exact Iff.rfl
  obtain ⟨d1, a1, l1, -⟩ := Fsm.canonize_spec hg hf1
  have g1 := (Fsm.Good.of_det d1 a1).prependAnything
  have n1 : f1.prependAnything.determined = false := rfl
  have g2 := Parse.good_removeDeadEnds g1 n1
  have n2 : f1.prependAnything.removeDeadEnds.determined = false := by rw [Parse.removeDeadEnds_determined]; exact n1
  have s2 : f1.prependAnything.removeDeadEnds.size ≤ 17 := by
    rw [(Fsm.removeDeadEnds_fields _).1, Fsm.prependAnything_size]; omega
  obtain ⟨f2, hf2⟩ := canonize_small g2 s2
  rw [hf2, Option.bind_some]
  have s3 : f2.size ≤ 3 := canonize_size_le g2 n2 hf2 endsAaDfa fun w hw => by
    rw [endsAaDfa_accepts, Fsm.lang_removeDeadEnds g1.wf g1.coh, Fsm.lang_prependAnything d1.wf, l1, hl']
    constructor
    · rintro ⟨x, rfl⟩
      exact ⟨x, fun c hc => hw c (List.mem_append_left _ hc), [97, 97], rfl, rfl⟩
    · rintro ⟨x, -, y, rfl, rfl⟩
      exact ⟨x, rfl⟩
  obtain ⟨d2, a2, l2, -⟩ := Fsm.canonize_spec g2 hf2
  by_cases hb : (!b || sim) = true
  · rw [if_pos hb]
    unfold disconnectFinals
    obtain ⟨g3, -, s4⟩ := cutFinals_good b d2 a2
    exact canonize_small g3 (by omega)
  · rw [if_neg hb]; exact ⟨_, rfl⟩

theorem positions_eq_filter {L : Language Nat} {p : List Nat → Bool} (h : ∀ u, u ∈ L ↔ p u = true) (w : List Nat) :
    positions L w = (w.inits.filter p).length := by
  classical
  unfold positions
  congr 1
  apply List.filter_congr
  intro u _
  rw [Bool.eq_iff_iff, decide_eq_true_eq]
  exact h u

/-- In `aaaa` it finds two occurrences of `aa` that do not overlap, and three places where one ends; by default also
three: simplification changes nothing here. -/
example (P : Policy) (hP : Typedef P) (base : Nat) (hal : base % 8 = 0) (hb : base ≤ 2 ^ 63) : ∃ f g₁ g₂, build aaExpr = some f ∧
    makeNonGreedyCounter false true f = some g₁ ∧ makeNonGreedyCounter true false f = some g₂ ∧
    ((HalfFinal.scn P (ofHalfFinal P base g₁)).after (HalfFinal.scn P (ofHalfFinal P base g₁)).initial [97, 97, 97, 97]).result 0 = 2 ∧
    ((HalfFinal.scn P (ofHalfFinal P base g₂)).after (HalfFinal.scn P (ofHalfFinal P base g₂)).initial [97, 97, 97, 97]).result 0 = 3 := by
  obtain ⟨f, hf, hg, ht, -, hl, hc⟩ := aa_counters
  obtain ⟨g₁, h1⟩ := hc false true
  obtain ⟨g₂, h2⟩ := hc true false
  have hw : IsWord [97, 97, 97, 97] := by unfold IsWord; decide
  refine ⟨f, g₁, g₂, hf, h1, h2, ?_, ?_⟩
  · refine (C49_non_overlapping hP hg ht h1 hal hb (by rw [hl]; exact fun h => by cases h) hw (by norm_num)).unique ⟨?_, ?_⟩
    · exact ⟨[([], [97, 97]), ([], [97, 97])], rfl, (by rw [hl]; intro p hp; simp at hp; rw [hp]; rfl), [], rfl⟩
    · rintro k ⟨ps, rfl, hp, rest, e⟩
      have key : ∀ ps : List (List Nat × List Nat), (∀ p ∈ ps, p.2 ∈ f.Lang) → 2 * ps.length ≤ (ps.flatMap fun p => p.1 ++ p.2).length := by
        intro ps
        induction ps with
        | nil => intro _; simp
        | cons p ps ih =>
          intro hp
          have h2 : p.2 = [97, 97] := by have := hp p (by simp); rw [hl] at this; exact this
          have := ih fun q hq => hp q (by simp [hq])
          rw [List.flatMap_cons, List.length_append, List.length_append, h2, List.length_cons]
          simp only [List.length_cons, List.length_nil]
          omega
      have h1 := key ps hp
      have h2 := congrArg List.length e
      rw [List.length_append] at h2
      simp only [List.length_cons, List.length_nil] at h2
      omega
  · rw [C49_all_ends hP hg ht h2 hal hb hw (by norm_num)]
    rw [positions_eq_filter (L := ends f.Lang) (p := fun u => decide ([97, 97] <:+ u))]
    · decide
    · intro u
      rw [decide_eq_true_eq]
      constructor
      · rintro ⟨x, l, hm, rfl⟩; rw [hl] at hm; cases hm; exact ⟨x, rfl⟩
      · rintro ⟨x, rfl⟩; exact ⟨x, [97, 97], by rw [hl]; rfl, rfl⟩

/-- The languages `abc|b`. -/
def abcOrB : Language Nat := ({[97, 98, 99], [98]} : Set (List Nat))

/-- Simplification loses occurrences: of the two occurrences of `abc|b` that end in `abc`, the counter built with `simplify`
(the default) counts one. -/
theorem C49_simplification_loses : positions (ends abcOrB) [97, 98, 99] = 2 ∧ positions (allWords * firsts (allWords * abcOrB)) [97, 98, 99] = 1 := by
  constructor
  · rw [positions_eq_filter (p := fun u => decide ([97, 98, 99] <:+ u) || decide ([98] <:+ u))]
    · decide
    · intro u
      rw [Bool.or_eq_true, decide_eq_true_eq, decide_eq_true_eq]
      constructor
      · rintro ⟨x, l, rfl | rfl, rfl⟩
        · exact .inl ⟨x, rfl⟩
        · exact .inr ⟨x, rfl⟩
      · rintro (⟨x, rfl⟩ | ⟨x, rfl⟩)
        · exact ⟨x, _, .inl rfl, rfl⟩
        · exact ⟨x, _, .inr rfl, rfl⟩
  · have hw : ∀ u, u <+: [97, 98, 99] → IsWord u := fun u hu c hc => by
      have := hu.subset hc
      simp only [List.mem_cons, List.not_mem_nil, or_false] at this
      rcases this with rfl | rfl | rfl <;> decide
    rw [positions_congr (L' := {u | [98] <:+ u})]
    · rw [positions_eq_filter (L := {u | [98] <:+ u}) (p := fun u => decide ([98] <:+ u))]
      · decide
      · intro u; rw [decide_eq_true_eq]; exact Iff.rfl
    · intro u hu
      constructor
      · rintro ⟨x, -, y, ⟨⟨z, hz, l, rfl | rfl, rfl⟩, hmin⟩, rfl⟩
        · have := hmin (z ++ [97, 98]) ⟨[99], by simp⟩ ⟨z ++ [97], ?_, [98], .inr rfl, by simp⟩
          · have := congrArg List.length this; simp at this
          · intro c hc
            rcases List.mem_append.1 hc with h | h
            · exact hz c h
            · rw [List.mem_singleton.1 h]; decide
        · exact ⟨x ++ z, by simp⟩
      · rintro ⟨x, rfl⟩
        refine ⟨x, fun c hc => hw _ hu c (List.mem_append_left _ hc), [98], ⟨⟨[], (fun c hc => by cases hc), [98], .inr rfl, rfl⟩, ?_⟩, rfl⟩
        rintro v hv ⟨z, -, l, hl, e⟩
        have hlen := hv.length_le
        have e' : v = z ++ l := e.symm
        rcases hl with rfl | rfl
        · rw [e', List.length_append] at hlen; simp at hlen
        · exact hv.eq_of_length (by rw [e', List.length_append] at hlen ⊢; simp at hlen ⊢; omega)

end Pire.Props
