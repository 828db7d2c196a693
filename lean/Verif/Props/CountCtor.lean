import Verif.Proofs.CountDet
import Verif.Proofs.CountTokens
import Verif.Proofs.CountWitness
import Verif.Props.Count

/-!
# What a `CountingScanner` counts: property C55

`CountingScanner(re, sep)` (pire/extra/count.cpp:744-834). What the scanner keeps track of is in `Spec/Counting.lean`, in terms of the languages of `re`
and `sep` alone.
-/

namespace Pire
namespace Count

open Spec Loaded Counting

/-- A legitimate call of the constructor: `re` does not match the empty word, state tags of the arguments do not have the bit the constructor uses, none
of the three calls of `Determine` fails (the constructor does not check that), and the table fits. -/
structure Call (base : Nat) (re sep : Fsm) : Prop where
  reGood : re.Good
  sepGood : sep.Good
  nonempty : [] ∉ re.Lang
  unmarked : Unmarked re ∧ Unmarked sep
  ok : CtorOk re sep
  fits : ∀ g, countFsm re sep = some g → g.letters.size ≤ 256 ∧ g.size * (g.letters.size * 8) ≤ 2 ^ 31
  aligned : base % 8 = 0
  low : base ≤ 2 ^ 63

/-! ### Legitimate calls exist -/

theorem chain_chain (n : Nat) : Chain n {n} (chain n) := by
  obtain ⟨h1, h2, h3, h4, h5, h6, h7, h8⟩ := chain_spec n
  exact ⟨.of_raw h1 h2 (.of_false h6) h7, h7, h3, h4, h5, h8⟩

theorem chain_tags (n : Nat) : (chain n).tags = Fsm.init.tags := by
  induction n with
  | zero => rfl
  | succ n ih =>
    rw [← ih, chain]
    show (((chain n).resize ((chain n).size + 1)).connectFinal _ 97).tags = (chain n).tags
    unfold Fsm.connectFinal
    exact Fsm.connectAll_tags _ _

/-- The automaton of `a|aaa`, by `Append` and `SetFinal`. -/
def aOrAaa : Fsm := (chain 3).setFinal 1 true

theorem aOrAaa_chain : Chain 3 {1, 3} aOrAaa := by
  obtain ⟨h1, h2, h3, h4, h5, h6, h7, h8⟩ := chain_spec 3
  refine ⟨.of_raw (h1.setFinal (by rw [h3]; decide)) h2 (.of_false h6) h7, h7, h3, h4, ?_, ?_⟩
  · unfold aOrAaa Fsm.setFinal
    simp only [if_true]
    rw [h5]
  · intro q c p
    rw [← h8]
    exact iff_of_eq (congrFun (congrFun (congrFun (Fsm.edge_congr rfl rfl) q) c) p)

theorem chain_call {n : Nat} {S : Finset Nat} {re : Fsm} (h : Chain n S re) (h0 : 0 ∉ S) (h1 : 1 ∈ S) (hn : 1 ≤ n) (hn2 : n ≤ 14)
    (ht : re.tags = Fsm.init.tags) {base : Nat} (hb : base % 8 = 0) (hb2 : base ≤ 2 ^ 63) : Call base re Fsm.init := by
  have hu : Unmarked Fsm.init := Fsm.TagsIn.init
  obtain ⟨k1, k2⟩ := chain_ok h h0 h1 hn hn2 (hu.of_eq ht) hu
  refine ⟨h.good, .init, ?_, ⟨hu.of_eq ht, hu⟩, k1, ?_, hb, hb2⟩
  · intro hm
    obtain ⟨k, hk, -, e⟩ := (h.mem _).1 hm
    cases k with
    | zero => exact h0 hk
    | succ k => rw [List.replicate_succ] at e; cases e
  · intro g hg
    obtain ⟨k3, k4⟩ := k2 g hg
    refine ⟨k3, (Nat.mul_le_mul k4 (Nat.mul_le_mul_right 8 k3)).trans (by norm_num)⟩

theorem chain_item {n : Nat} {S : Finset Nat} {re : Fsm} (h : Chain n S re) (h0 : 0 ∉ S) (w : List Nat) :
    Item re.Lang Fsm.init.Lang w ↔ ∃ k ∈ S, k ≤ n ∧ w = List.replicate k 97 := by
  rw [← h.mem]
  constructor
  · rintro ⟨u, v, rfl, hu, -, hv⟩
    rw [Fsm.lang_init] at hu
    have : u = [] := hu
    subst this
    exact hv
  · intro hw
    refine ⟨[], w, rfl, by rw [Fsm.lang_init]; rfl, ?_, hw⟩
    intro x hx hm
    rw [List.infix_nil.1 hx, h.mem] at hm
    obtain ⟨k, hk, -, e⟩ := hm
    cases k with
    | zero => exact h0 hk
    | succ k => rw [List.replicate_succ] at e; cases e

/-! ### A text that is counted wrongly -/

theorem next_alive {re sep : Language Nat} {s : List Nat × List Nat} {c : Nat} (h : Alive re sep (s.1 ++ [c])) :
    ((Accepted re sep (s.1 ++ [c]) ∨ (Accepted re sep (s.2 ++ [c]) ∧ ¬ Matched re sep (s.1 ++ [c]))) → Counting.next re sep s c = (s.1 ++ [c], [])) ∧
    (¬ (Accepted re sep (s.1 ++ [c]) ∨ (Accepted re sep (s.2 ++ [c]) ∧ ¬ Matched re sep (s.1 ++ [c]))) →
      Counting.next re sep s c = (s.1 ++ [c], s.2 ++ [c])) := by
  unfold Counting.next
  simp only [if_pos h]
  exact ⟨fun hz => congrArg _ (if_pos (by rw [if_pos h]; exact hz)), fun hz => congrArg _ (if_neg (by rw [if_pos h]; exact hz))⟩

theorem next_dead {re sep : Language Nat} {s : List Nat × List Nat} {c : Nat} (h : ¬ Alive re sep (s.1 ++ [c])) (hz : ¬ Accepted re sep (s.2 ++ [c])) :
    Counting.next re sep s c = (s.2 ++ [c], s.2 ++ [c]) := by
  unfold Counting.next
  simp only [if_neg h]
  exact congrArg _ (if_neg (by rw [if_neg h]; exact fun k => k.elim hz fun k => hz k.1))

section Wrong

variable {re sep : Language Nat} (hI : ∀ w, Item re sep w ↔ w = [97] ∨ w = [97, 97, 97])
include hI

theorem wrong_dead {v : List Nat} {x : Nat} (hx : x ≠ 97) : ¬ Alive re sep (97 :: x :: v) := by
  rintro ⟨u, h | ⟨c, _, h⟩⟩
  · rcases (hI _).1 h with h | h
    · cases h
    · injection h with _ h
      injection h with h _
      exact hx h
  · cases h

theorem wrong_matched (v : List Nat) : Matched re sep (97 :: v) := ⟨[97], ⟨v, rfl⟩, (hI _).2 (.inl rfl)⟩

theorem wrong_tail (n : Nat) (v os : List Nat) (h : Told re sep (97 :: 120 :: v, 97 :: 120 :: v) (List.replicate n 122) os) : os = List.replicate n 3 := by
  induction n generalizing v os with
  | zero => exact h
  | succ n ih =>
    rw [List.replicate_succ] at h
    obtain ⟨o, os', rfl, ⟨c', _, _, h1⟩, _, h2⟩ := h
    have hd : ∀ c, ¬ Alive re sep (97 :: 120 :: v ++ [c]) := fun c => wrong_dead hI (by decide)
    have ho : o = 3 := by
      rw [h1]
      unfold Counting.out
      rw [if_neg (hd c')]
      exact if_pos (wrong_matched hI _)
    have hn : next re sep (97 :: 120 :: v, 97 :: 120 :: v) 122 = (97 :: 120 :: (v ++ [122]), 97 :: 120 :: (v ++ [122])) := by
      have hna : ¬ Accepted re sep (97 :: 120 :: v ++ [122]) := fun ha => hd 122 ⟨[], by rw [List.append_nil]; exact ha⟩
      exact next_dead (hd 122) hna
    rw [hn] at h2
    rw [ho, ih _ _ h2, List.replicate_succ]

theorem wrong_told (n : Nat) (os : List Nat) (h : Told re sep ([], []) ([97, 97, 120] ++ List.replicate n 122) os) : ∃ a, os = a ++ List.replicate n 3 := by
  obtain ⟨o1, os1, rfl, -, -, h⟩ := h
  obtain ⟨o2, os2, rfl, -, -, h⟩ := h
  obtain ⟨o3, os3, rfl, -, -, h⟩ := h
  have a1 : Accepted re sep [97] := .inl ((hI _).2 (.inl rfl))
  have n1 : next re sep ([], []) 97 = ([97], []) := by
    exact (next_alive (s := ([], [])) (show Alive re sep [97] from ⟨[], a1⟩)).1 (.inl a1)
  have n2 : next re sep ([97], []) 97 = ([97, 97], [97]) := by
    have hl : Alive re sep [97, 97] := ⟨[97], .inl ((hI _).2 (.inr rfl))⟩
    have hna : ¬ Accepted re sep [97, 97] := by
      rintro (h | ⟨c, _, h⟩)
      · rcases (hI _).1 h with h | h <;> cases h
      · cases h
    exact (next_alive (s := ([97], [])) hl).2 (fun h => h.elim hna fun h => h.2 (wrong_matched hI _))
  have n3 : next re sep ([97, 97], [97]) 120 = ([97, 120], [97, 120]) := by
    have hl : ¬ Alive re sep [97, 97, 120] := by
      rintro ⟨u, h | ⟨c, _, h⟩⟩
      · rcases (hI _).1 h with h | h <;> cases h
      · cases h
    have hna : ¬ Accepted re sep [97, 120] := fun ha => wrong_dead (v := []) (x := 120) hI (by decide) ⟨[], by rw [List.append_nil]; exact ha⟩
    exact next_dead (s := ([97, 97], [97])) hl hna
  rw [n1, n2, n3] at h
  rw [wrong_tail hI n [] os3 h]
  exact ⟨[o1, o2, o3], rfl⟩

end Wrong

end Count

namespace Props

open Spec Loaded Counting Count

/-- **The machine of a `CountingScanner`** does to the counter what `Told` says. -/
theorem C55_machine {base : Nat} {re sep : Fsm} (h : Call base re sep) :
    ∃ s M, ctor base re sep = some s ∧ MadeBasic s M ∧ ∀ w, IsWord w → Told re.Lang sep.Lang ([], []) w (M.outs M.q0 w) := by
  obtain ⟨f, h1, h2, h3, h4⟩ := h.ok
  have hm := mainFsm_spec h.reGood h.sepGood h.nonempty h.unmarked.1 h.unmarked.2 h1 h2 h3
  obtain ⟨states, hq⟩ := square_spec hm
  obtain ⟨hd, ht⟩ := told hm hq h4
  have hg : countFsm re sep = some (square (mainFsm f)).determine.1 := by unfold countFsm; rw [h1]; rfl
  obtain ⟨g1, g2⟩ := h.fits _ hg
  exact ⟨_, _, by unfold ctor; rw [hg]; rfl, ⟨_, base, rfl, rfl, hd, g1, g2, h.aligned, h.low⟩, ht⟩

/-- **What is shown.** The scanner has one counter; after any text (short enough for 32-bit counters) it shows the longest series of increments without
a reset among those `Told` allows. -/
theorem C55_result {base : Nat} {re sep : Fsm} (h : Call base re sep) :
    ∃ s, ctor base re sep = some s ∧ s.reCount = 1 ∧ ∀ w, IsWord w → 2 * w.length < 2 ^ 32 →
      ∃ os, Told re.Lang sep.Lang ([], []) w os ∧ MaxRun (os.flatMap basicOps) (((scn takeBasic s).after (scn takeBasic s).initial w).result 0) := by
  obtain ⟨s, M, h1, h2, h3⟩ := C55_machine h
  obtain ⟨h4, h5⟩ := C47_basic_counts (.made h2)
  exact ⟨s, h1, h4, fun w hw hl => ⟨_, h3 w hw, h5 w hw hl 0 M rfl⟩⟩

/-- **Nothing to count.** If no part of the text matches `re` (after a separator that matches `sep`), the counter shows 0. -/
theorem C55_nothing_to_count {base : Nat} {re sep : Fsm} (h : Call base re sep) :
    ∃ s, ctor base re sep = some s ∧ ∀ w, IsWord w → 2 * w.length < 2 ^ 32 → (∀ u v, u ++ v <:+: w → u ∈ sep.Lang → v ∉ re.Lang) →
      ((scn takeBasic s).after (scn takeBasic s).initial w).result 0 = 0 := by
  obtain ⟨s, h1, -, h2⟩ := C55_result h
  refine ⟨s, h1, fun w hw hl hn => ?_⟩
  obtain ⟨os, h3, h4⟩ := h2 w hw hl
  refine maxRun_zero (fun hi => ?_) h4
  obtain ⟨_, hu, u, v, rfl, h5, -, h6⟩ := told_item (t := []) List.nil_suffix List.nil_suffix h3 (ops_inc hi)
  exact hn u v hu h5 h6

/-- **The orderly case.** If a word that begins with an item and can still become an item is an item (`Steady`), the text is cut into the longest possible
pieces from left to right, and the counter shows the length of the longest series of consecutive pieces that are items. -/
theorem C55_pieces {base : Nat} {re sep : Fsm} (h : Call base re sep) (hs : Steady re.Lang sep.Lang) (hp : PlainItems re.Lang sep.Lang) :
    ∃ s, ctor base re sep = some s ∧ ∀ w, IsWord w → (∀ c ∈ w, Plain c) → 2 * w.length < 2 ^ 32 →
      MaxRun ((pieces re.Lang sep.Lang [] w).map (verdict re.Lang sep.Lang)) (((scn takeBasic s).after (scn takeBasic s).initial w).result 0) := by
  obtain ⟨s, h1, -, h2⟩ := C55_result h
  refine ⟨s, h1, fun w hw hpl hl => ?_⟩
  obtain ⟨os, h3, h4⟩ := h2 w hw hl
  rw [told_steady h.nonempty hs hp (fun x hx => by cases hx) (.inl rfl) hw hpl h3] at h4
  exact h4

/-- Consequently, the counter never shows more than there are items one after another somewhere in the text. -/
theorem C55_not_too_many {base : Nat} {re sep : Fsm} (h : Call base re sep) (hs : Steady re.Lang sep.Lang) (hp : PlainItems re.Lang sep.Lang) :
    ∃ s, ctor base re sep = some s ∧ ∀ w, IsWord w → (∀ c ∈ w, Plain c) → 2 * w.length < 2 ^ 32 →
      ∃ is : List (List Nat), is.length = ((scn takeBasic s).after (scn takeBasic s).initial w).result 0 ∧ (∀ i ∈ is, Item re.Lang sep.Lang i) ∧
        is.flatten <:+: w := by
  obtain ⟨s, h1, h2⟩ := C55_pieces h hs hp
  exact ⟨s, h1, fun w hw hpl hl => consecutive (h2 w hw hpl hl)⟩

/-- Calls with the automata of `a` and of the empty word are legitimate, and the case is orderly. -/
theorem C55_witness {base : Nat} (hb : base % 8 = 0) (hb2 : base ≤ 2 ^ 63) : Call base (chain 1) Fsm.init ∧
    Steady (chain 1).Lang Fsm.init.Lang ∧ PlainItems (chain 1).Lang Fsm.init.Lang := by
  have hi : ∀ w, Item (chain 1).Lang Fsm.init.Lang w ↔ w = [97] := by
    intro w
    rw [chain_item (chain_chain 1) (by decide)]
    constructor
    · rintro ⟨k, hk, -, rfl⟩
      rw [Finset.mem_singleton.1 hk]
      rfl
    · rintro rfl
      exact ⟨1, Finset.mem_singleton_self _, Nat.le_refl _, rfl⟩
  refine ⟨chain_call (chain_chain 1) (by decide) (by decide) (by decide) (by decide) (chain_tags 1) hb hb2, ?_, ?_⟩
  · rintro w ⟨u, ⟨v, rfl⟩, hu⟩ ⟨x, hx⟩
    rw [hi] at hu
    subst hu
    have : v = [] := by
      rcases hx with hx | ⟨c, -, hx⟩
      · rw [hi] at hx
        have := congrArg List.length hx
        simp at this
        exact this.1
      · have := congrArg List.length hx
        simp at this
        exact this.1
    subst this
    exact .inl ((hi _).2 rfl)
  · intro w hw c hc
    rw [hi] at hw
    subst hw
    rw [List.mem_singleton.1 hc]
    exact .inl (by decide)

/-- **The counter can be wrong without limit.** `re` is `a|aaa`, nothing is between the matches. In the text `aax` followed by `n` characters `z`
there are never more than two matches one after another; the counter shows at least `n`. -/
theorem C55_overcounts_witness {base : Nat} (hb : base % 8 = 0) (hb2 : base ≤ 2 ^ 63) : Call base aOrAaa Fsm.init ∧
    ∃ s, ctor base aOrAaa Fsm.init = some s ∧ ∀ n, 2 * (n + 3) < 2 ^ 32 →
      n ≤ ((scn takeBasic s).after (scn takeBasic s).initial ([97, 97, 120] ++ List.replicate n 122)).result 0 ∧
      ∀ is : List (List Nat), (∀ i ∈ is, Item aOrAaa.Lang Fsm.init.Lang i) → is.flatten <:+: [97, 97, 120] ++ List.replicate n 122 → is.length ≤ 2 := by
  have hc := chain_call aOrAaa_chain (by decide) (by decide) (by decide) (by decide) (chain_tags 3) hb hb2
  have hi : ∀ w, Item aOrAaa.Lang Fsm.init.Lang w ↔ w = [97] ∨ w = [97, 97, 97] := by
    intro w
    rw [chain_item aOrAaa_chain (by decide)]
    constructor
    · rintro ⟨k, hk, -, rfl⟩
      rcases Finset.mem_insert.1 hk with rfl | hk
      · exact .inl rfl
      · rw [Finset.mem_singleton.1 hk]; exact .inr rfl
    · rintro (rfl | rfl)
      · exact ⟨1, by decide, by decide, rfl⟩
      · exact ⟨3, by decide, by decide, rfl⟩
  refine ⟨hc, ?_⟩
  obtain ⟨s, h1, -, h2⟩ := C55_result hc
  refine ⟨s, h1, fun n hn => ⟨?_, ?_⟩⟩
  · have hw : IsWord ([97, 97, 120] ++ List.replicate n 122) := by
      intro c hc
      rcases List.mem_append.1 hc with hc | hc
      · revert c; intro c _ hc
        simp only [List.mem_cons, List.not_mem_nil, or_false] at hc
        rcases hc with rfl | rfl | rfl <;> exact ⟨by decide, by decide⟩
      · rw [List.eq_of_mem_replicate hc]; exact ⟨by decide, by decide⟩
    obtain ⟨os, h3, h4⟩ := h2 _ hw (by simp; omega)
    obtain ⟨a, rfl⟩ := wrong_told hi n os h3
    have hops : (List.replicate n 3).flatMap basicOps = List.replicate n Op.inc := by
      clear h3 h4 hw hn
      induction n with
      | zero => rfl
      | succ n ih => rw [List.replicate_succ, List.flatMap_cons, ih, List.replicate_succ]; rfl
    have := h4.2 (List.replicate n Op.inc) ⟨a.flatMap basicOps, [], by rw [List.flatMap_append, hops, List.append_nil]⟩ (by
      intro hm; have := List.eq_of_mem_replicate hm; cases this)
    rw [List.length_replicate] at this
    exact this
  · intro is his hin
    have hcount := hin.sublist.count_le 97
    have h5 : List.count 97 ([97, 97, 120] ++ List.replicate n 122) = 2 := by
      rw [List.count_append, List.count_replicate]; rfl
    have h6 : is.length ≤ List.count 97 is.flatten := by
      clear hcount h5 hin
      induction is with
      | nil => exact Nat.zero_le _
      | cons i is ih =>
        have := ih fun x hx => his x (List.mem_cons_of_mem _ hx)
        rw [List.flatten_cons, List.count_append, List.length_cons]
        have : 1 ≤ List.count 97 i := by
          rcases (hi i).1 (his i List.mem_cons_self) with rfl | rfl <;> decide
        omega
    omega

end Props
end Pire
